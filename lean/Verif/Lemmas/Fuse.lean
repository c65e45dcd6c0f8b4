import Verif.Model.Fuse
import Verif.Lemmas.RandomPathAll
import Verif.Lemmas.ContractIn

/-! The loop of `fuse`, side by side with `contract`. -/

namespace TNCO
open Linear
variable {ι σ W : Type} [DecidableEq ι]

/-- `contractIndsLoop`, returning the hyper-counts as well. -/
def contractSt (enum : Finset ι → List ι) (out : Finset ι) :
    (ι → ℤ) → List (List ι) → List (ℕ × ℕ) → Except PyErr ((ι → ℤ) × List (List ι))
  | hc, ts, [] => .ok (hc, ts)
  | hc, ts, (x, y) :: path =>
    if x = y then .error .valueError
    else match popPair ts x y with
      | none => .error .indexError
      | some (xs, ys, rest) =>
        if !countsOk hc xs ys then .error .assertionError
        else
          match tensordotInds xs ys (enum (keptInds hc out xs ys)) with
          | .error e => .error e
          | .ok zs => contractSt enum out (lowerCount hc xs ys) (rest ++ [zs]) path

theorem contractSt_snd (enum : Finset ι → List ι) (out : Finset ι) (path : List (ℕ × ℕ)) (hc : ι → ℤ) (ts : List (List ι)) :
    contractIndsLoop enum out hc ts path = (contractSt enum out hc ts path).map Prod.snd := by
  induction path generalizing hc ts with
  | nil => rfl
  | cons s path ih =>
    obtain ⟨x, y⟩ := s
    unfold contractIndsLoop contractSt
    split
    · rfl
    · cases popPair ts x y with
      | none => rfl
      | some r =>
        obtain ⟨xs, ys, rest⟩ := r
        simp only
        split
        · rfl
        · cases tensordotInds xs ys (enum (keptInds hc out xs ys)) with
          | error e => rfl
          | ok zs => exact ih _ _

theorem contractSt_append (enum : Finset ι → List ι) (out : Finset ι) (p q : List (ℕ × ℕ)) {hc hc' : ι → ℤ} {ts ts' : List (List ι)}
    (h : contractSt enum out hc ts p = .ok (hc', ts')) :
    contractSt enum out hc ts (p ++ q) = contractSt enum out hc' ts' q := by
  induction p generalizing hc ts with
  | nil =>
    simp only [contractSt, Except.ok.injEq, Prod.mk.injEq] at h
    rw [h.1, h.2]; rfl
  | cons s p ih =>
    obtain ⟨x, y⟩ := s
    unfold contractSt at h
    rw [List.cons_append]
    conv_lhs => unfold contractSt
    split
    · rename_i hxy; rw [if_pos hxy] at h; simp at h
    · rename_i hxy
      rw [if_neg hxy] at h
      cases hp : popPair ts x y with
      | none => rw [hp] at h; simp at h
      | some r =>
        obtain ⟨xs, ys, rest⟩ := r
        rw [hp] at h
        simp only at h ⊢
        split
        · rename_i hk; rw [if_pos hk] at h; simp at h
        · rename_i hk
          rw [if_neg hk] at h
          cases hz : tensordotInds xs ys (enum (keptInds hc out xs ys)) with
          | error e => rw [hz] at h; simp at h
          | ok zs => rw [hz] at h; exact ih h

/-- The fused tensors with their numbers. -/
def tri : ℕ → List (ℕ × ℕ × List ι) → List (ℕ × ℕ × ℕ)
  | _, [] => []
  | n, m :: ms => (m.1, m.2.1, n) :: tri (n + 1) ms

omit [DecidableEq ι] in
theorem tri_append (n : ℕ) (ms ms' : List (ℕ × ℕ × List ι)) : tri n (ms ++ ms') = tri n ms ++ tri (n + ms.length) ms' := by
  induction ms generalizing n with
  | nil => rfl
  | cons m ms ih => simp only [List.cons_append, tri, ih, List.length_cons]; congr 3; omega

omit [DecidableEq ι] in
theorem tri_length (n : ℕ) (ms : List (ℕ × ℕ × List ι)) : (tri n ms).length = ms.length := by
  induction ms generalizing n with
  | nil => rfl
  | cons m ms ih => simp [tri, ih]

theorem erase_append_left' {L M : List ℕ} {x : ℕ} (h : x ∈ L) : (L ++ M).erase x = L.erase x ++ M :=
  List.erase_append_left _ h

theorem idxOf_erase_sorted {L : List ℕ} (hs : L.Pairwise (· < ·)) {a b : ℕ} (ha : a ∈ L) (hab : a < b) :
    (L.erase b).idxOf a = L.idxOf a := by
  induction L with
  | nil => rfl
  | cons x L ih =>
    rw [List.pairwise_cons] at hs
    by_cases hxb : x = b
    · subst hxb
      rcases List.mem_cons.1 ha with rfl | ha
      · omega
      · have := hs.1 a ha; omega
    · rw [List.erase_cons_tail (by simpa using hxb)]
      by_cases hxa : x = a
      · subst hxa; rw [List.idxOf_cons_self, List.idxOf_cons_self]
      · rw [List.idxOf_cons_ne _ hxa, List.idxOf_cons_ne _ hxa]
        rcases List.mem_cons.1 ha with rfl | ha
        · exact absurd rfl hxa
        · rw [ih hs.2 ha]

theorem idxOf_lt_sorted {L : List ℕ} (hs : L.Pairwise (· < ·)) {a b : ℕ} (ha : a ∈ L) (hb : b ∈ L) (hab : a < b) :
    L.idxOf a < L.idxOf b := by
  by_contra h
  have h1 := List.idxOf_lt_length_of_mem ha
  have h2 := List.idxOf_lt_length_of_mem hb
  have e1 := List.getElem_idxOf h1
  have e2 := List.getElem_idxOf h2
  rcases Nat.lt_or_eq_of_le (Nat.not_lt.1 h) with h3 | h3
  · have := List.pairwise_iff_getElem.1 hs _ _ h2 h1 h3
    omega
  · simp only [h3] at e2
    omega

/-- `fuseNorm` computes the positions among the tensors that exist. -/
theorem fuseNorm_eq (ms : List (ℕ × ℕ × List ι)) (n k : ℕ) {L : List ℕ} (hs : L.Pairwise (· < ·)) (hlt : ∀ a ∈ L, a < n)
    (hk : Ok L (tri n ms)) (hl : ms.length ≤ k) :
    fuseNorm (L ++ List.range' n k) ms = .ok (lin L (tri n ms)) := by
  induction ms generalizing n k L with
  | nil => rfl
  | cons m ms ih =>
    obtain ⟨px, py, tz⟩ := m
    obtain ⟨h1, h2, h3, h4, h5⟩ := hk
    change px ≠ py at h3
    obtain ⟨k, rfl⟩ : ∃ k', k = k' + 1 := ⟨k - 1, by simp at hl; omega⟩
    have hn : L.Nodup := hs.imp fun hab => Nat.ne_of_lt hab
    have ha : min px py ∈ L := by rcases min_choice px py with h | h <;> rw [h] <;> assumption
    have hb : max px py ∈ L := by rcases max_choice px py with h | h <;> rw [h] <;> assumption
    have hab : min px py < max px py := by omega
    set pos := L ++ List.range' n (k + 1) with hpos
    have e1 : pos.eraseIdx (pos.idxOf (max px py)) = L.erase (max px py) ++ List.range' n (k + 1) := by
      rw [← List.erase_eq_eraseIdx_of_idxOf rfl, hpos, erase_append_left' hb]
    have ha' : min px py ∈ L.erase (max px py) := (List.mem_erase_of_ne (Nat.ne_of_lt hab)).2 ha
    have e2 : (L.erase (max px py) ++ List.range' n (k + 1)).idxOf (min px py) = L.idxOf (min px py) := by
      rw [List.idxOf_append_of_mem ha', idxOf_erase_sorted hs ha hab]
    have e3 : pos.idxOf (max px py) = L.idxOf (max px py) := by rw [hpos, List.idxOf_append_of_mem hb]
    have e4 : (L.erase (max px py) ++ List.range' n (k + 1)).eraseIdx
        ((L.erase (max px py) ++ List.range' n (k + 1)).idxOf (min px py)) = stepL L px py n ++ List.range' (n + 1) k := by
      rw [← List.erase_eq_eraseIdx_of_idxOf rfl, erase_append_left' ha']
      unfold stepL
      have : (L.erase (max px py)).erase (min px py) = (L.erase px).erase py := by
        rcases Nat.lt_or_ge px py with h | h
        · rw [max_eq_right h.le, min_eq_left h.le, List.erase_comm]
        · rw [max_eq_left h, min_eq_right h]
      rw [this, List.range'_succ]
      simp
    unfold fuseNorm
    simp only
    rw [if_neg (by rw [hpos]; simp [hb]), e1, if_neg (by simp [ha']), e4, ih (n + 1) k (stepL_sorted hs hlt) ?_ h5 (by simp at hl; omega)]
    · simp only [tri, lin]
      rw [e2, e3]
      congr 3
      · rcases Nat.lt_or_ge px py with h | h
        · rw [min_eq_left h.le, min_eq_left (idxOf_lt_sorted hs h1 h2 h).le]
        · have h := lt_of_le_of_ne h (Ne.symm h3)
          rw [min_eq_right h.le, min_eq_right (idxOf_lt_sorted hs h2 h1 h).le]
      · rcases Nat.lt_or_ge px py with h | h
        · rw [max_eq_right h.le, max_eq_right (idxOf_lt_sorted hs h1 h2 h).le]
        · have h := lt_of_le_of_ne h (Ne.symm h3)
          rw [max_eq_left h.le, max_eq_left (idxOf_lt_sorted hs h2 h1 h).le]
    · intro a ha
      rcases (mem_stepL hn).1 ha with h | h
      · have := hlt a h.1; omega
      · omega

/-- How many of the tensors have the index. -/
def cntI (f : ℕ → List ι) (L : List ℕ) (x : ι) : ℕ := L.countP fun k => x ∈ f k

theorem cntI_pos {f : ℕ → List ι} {L : List ℕ} {x : ι} : 0 < cntI f L x ↔ ∃ k ∈ L, x ∈ f k := by
  unfold cntI
  rw [List.countP_pos_iff]
  simp

theorem mem_fusedInds {hc : ι → ℤ} {out : Finset ι} {tx ty : List ι} {x : ι} :
    x ∈ fusedInds hc out tx ty ↔ (x ∈ tx ∧ x ∉ ty) ∨ (x ∈ ty ∧ x ∉ tx) ∨ (x ∈ tx ∧ x ∈ ty ∧ (1 < hc x ∨ x ∈ out)) := by
  unfold fusedInds
  simp only [mem_uniqueEverseen, List.mem_append, List.mem_filter, decide_eq_true_eq, Finset.mem_union, Finset.mem_sdiff,
    Finset.mem_inter, Finset.mem_filter, List.mem_toFinset]
  tauto

/-- What is known of one fusion. -/
structure Fused (enum : Finset ι → List ι) (out excl : Finset ι) (width : List ι → Except PyErr W) [LT W] (maxW : W)
    (tsInds : List (List ι)) (path : List (ℕ × ℕ)) (tz : List ι) : Prop where
  contr : ∃ hc inds zs, contractSt enum out (hyperCount tsInds.flatten) tsInds path = .ok (hc, inds) ∧
    inds.getLast? = some zs ∧ zs.Perm tz
  width_le : ∃ w, width tz = .ok w ∧ ¬ maxW < w
  excluded : ∀ x ∈ tz, x ∉ excl
  sub : ∀ x ∈ tz, x ∈ tsInds.flatten

structure FuInv [LT W] (enum : Finset ι → List ι) (out excl : Finset ι) (width : List ι → Except PyErr W) (maxW : W)
    (tsInds : List (List ι)) (st : FuseState ι) (f u : ℕ → List ι) (L : List ℕ) : Prop where
  fin : L = final (List.range tsInds.length) (tri tsInds.length st.merged)
  ok : Ok (List.range tsInds.length) (tri tsInds.length st.merged)
  idx : st.tIdx = tsInds.length + st.merged.length
  lt : ∀ k ∈ L, k < st.tIdx
  srt : L.Pairwise (· < ·)
  ts : ∀ k ∈ L, st.ts k = some (f k)
  orig : ∀ k ∈ L, k < tsInds.length → f k = tsInds.getD k []
  nd : ∀ k ∈ L, (f k).Nodup
  sub : ∀ k ∈ L, ∀ x ∈ f k, x ∈ tsInds.flatten
  i2t : ∀ x, 0 < cntI f L x → st.i2t x = some (L.toFinset.filter fun k => x ∈ f k)
  hc : ∀ x ∈ tsInds.flatten, st.hc x = ((cntI f L x - 1 : ℕ) : ℤ)
  availc : ∀ x ∈ st.avail, x ∈ tsInds.flatten
  contr : contractSt enum out (hyperCount tsInds.flatten) tsInds (lin (List.range tsInds.length) (tri tsInds.length st.merged)) =
    .ok (st.hc, L.map u)
  perm : ∀ k ∈ L, (u k).Perm (f k)
  merged : ∀ i (hi : i < st.merged.length), Fused enum out excl width maxW tsInds
    ((lin (List.range tsInds.length) (tri tsInds.length st.merged)).take (i + 1)) st.merged[i].2.2
  usedx : ∀ k ∈ used (tri tsInds.length st.merged), k < tsInds.length → ∀ x ∈ tsInds.getD k [], x ∉ excl
  mergedx : ∀ x ∈ st.mergedInds, x ∉ excl
  free : excl = ∅ → (∀ w, ¬ maxW < w) → ∀ x ∈ tsInds.flatten, x ∉ st.avail → st.hc x = 0

variable [LT W] {enum : Finset ι → List ι} {out excl : Finset ι} {width : List ι → Except PyErr W} {maxW : W}
  {tsInds : List (List ι)} {st : FuseState ι} {f u : ℕ → List ι} {L : List ℕ}

theorem FuInv.nodup (h : FuInv enum out excl width maxW tsInds st f u L) : L.Nodup :=
  h.srt.imp fun hab => Nat.ne_of_lt hab

theorem toFinset_perm {l m : List ι} (h : l.Perm m) : l.toFinset = m.toFinset := List.toFinset_eq_of_perm _ _ h

theorem FuInv.drop (h : FuInv enum out excl width maxW tsInds st f u L) {avail : List ι}
    (h1 : ∀ x ∈ avail, x ∈ st.avail)
    (h2 : excl = ∅ → (∀ w, ¬ maxW < w) → ∀ x ∈ st.avail, x ∉ avail → st.hc x = 0) :
    FuInv enum out excl width maxW tsInds { st with avail := avail } f u L where
  fin := h.fin
  ok := h.ok
  idx := h.idx
  lt := h.lt
  srt := h.srt
  ts := h.ts
  orig := h.orig
  nd := h.nd
  sub := h.sub
  i2t := h.i2t
  hc := h.hc
  availc x hx := h.availc x (h1 x hx)
  contr := h.contr
  perm := h.perm
  merged := h.merged
  usedx := h.usedx
  mergedx := h.mergedx
  free e hw x hx hxa := by
    by_cases hxs : x ∈ st.avail
    · exact h2 e hw x hxs hxa
    · exact h.free e hw x hx hxs

set_option maxHeartbeats 400000 in
/-- One fusion. -/
theorem FuInv.step (he : EnumOk enum) (h : FuInv enum out excl width maxW tsInds st f u L) {px py : ℕ} (hx : px ∈ L) (hy : py ∈ L)
    (hxy : px ≠ py) (hex : ∀ x ∈ excl, ¬ (x ∈ f px ∨ x ∈ f py)) {w : W} (hw : width (fusedInds st.hc out (f px) (f py)) = .ok w)
    (hwm : ¬ maxW < w) {avail : List ι} (ha1 : ∀ x ∈ avail, x ∈ tsInds.flatten)
    (ha2 : ∀ x ∈ st.avail, x ∉ avail → lowerCount st.hc (f px) (f py) x = 0) :
    countsOk st.hc (f px) (f py) = true ∧
    (∀ x ∈ (fusedInds st.hc out (f px) (f py)).toFinset ∪ (((f px).toFinset ∩ (f py).toFinset).filter fun x => ¬ 1 < st.hc x) \ out,
      st.i2t x ≠ none) ∧
    ∃ f' u', FuInv enum out excl width maxW tsInds
      { ts := Function.update (Function.update (Function.update st.ts px none) py none) st.tIdx
          (some (fusedInds st.hc out (f px) (f py)))
        i2t := fun x =>
          if x ∈ (((f px).toFinset ∩ (f py).toFinset).filter fun x => ¬ 1 < st.hc x) \ out then none
          else if x ∈ fusedInds st.hc out (f px) (f py) then (st.i2t x).map fun S => (S \ {px, py}) ∪ {st.tIdx}
          else st.i2t x
        hc := lowerCount st.hc (f px) (f py)
        tIdx := st.tIdx + 1
        avail := avail
        mergedInds := st.mergedInds ∪ ((f px).toFinset ∩ (f py).toFinset)
        merged := st.merged ++ [(px, py, fusedInds st.hc out (f px) (f py))] } f' u' (stepL L px py st.tIdx) := by
  have nL := h.nodup
  have hzL : st.tIdx ∉ L := fun hm => lt_irrefl _ (h.lt _ hm)
  set xs := f px with hxs
  set ys := f py with hys
  set tz := fusedInds st.hc out xs ys with htz
  set R := (L.erase px).erase py with hR
  have nx : xs.Nodup := h.nd px hx
  have ny : ys.Nodup := h.nd py hy
  have hperm : L.Perm (px :: py :: R) := perm_erase2 hx hy hxy
  have hRL : ∀ k ∈ R, k ∈ L := fun k hk => hperm.mem_iff.2 (by simp [hk])
  have hcnt : ∀ x, cntI f L x = (if x ∈ xs then 1 else 0) + ((if x ∈ ys then 1 else 0) + cntI f R x) := by
    intro x
    unfold cntI
    rw [hperm.countP_eq, List.countP_cons, List.countP_cons]
    simp only [decide_eq_true_eq]
    rw [← hxs, ← hys]
    ring
  have hsh : ∀ x, x ∈ xs → x ∈ ys → st.hc x = 1 + (cntI f R x : ℤ) := by
    intro x h1 h2
    rw [h.hc x (h.sub px hx x h1), hcnt, if_pos h1, if_pos h2]
    omega
  have hz : ∀ x, x ∈ tz ↔ (x ∈ xs ∧ x ∉ ys) ∨ (x ∈ ys ∧ x ∉ xs) ∨ (x ∈ xs ∧ x ∈ ys ∧ (0 < cntI f R x ∨ x ∈ out)) := by
    intro x
    rw [htz, mem_fusedInds]
    by_cases h1 : x ∈ xs
    · by_cases h2 : x ∈ ys
      · rw [hsh x h1 h2]
        have : (1 : ℤ) < 1 + (cntI f R x : ℤ) ↔ 0 < cntI f R x := by omega
        rw [this]
      · simp [h1, h2]
    · simp [h1]
  have hzsub : ∀ x ∈ tz, x ∈ xs ∨ x ∈ ys := by
    intro x hx'
    rcases (hz x).1 hx' with h1 | h1 | h1
    · exact Or.inl h1.1
    · exact Or.inr h1.1
    · exact Or.inl h1.1
  have nz : tz.Nodup := uniqueEverseen_nodup _
  have hflat : ∀ x, x ∈ xs ∨ x ∈ ys → x ∈ tsInds.flatten := by
    rintro x (h1 | h1)
    · exact h.sub px hx x h1
    · exact h.sub py hy x h1
  have hpos : ∀ x, x ∈ xs ∨ x ∈ ys → 0 < cntI f L x := by
    rintro x (h1 | h1)
    · exact cntI_pos.2 ⟨px, hx, h1⟩
    · exact cntI_pos.2 ⟨py, hy, h1⟩
  set gone := ((xs.toFinset ∩ ys.toFinset).filter fun x => ¬ 1 < st.hc x) \ out with hgone
  have hg : ∀ x, x ∈ gone ↔ x ∈ xs ∧ x ∈ ys ∧ cntI f R x = 0 ∧ x ∉ out := by
    intro x
    rw [hgone]
    simp only [Finset.mem_sdiff, Finset.mem_filter, Finset.mem_inter, List.mem_toFinset]
    constructor
    · rintro ⟨⟨⟨h1, h2⟩, h3⟩, h4⟩
      rw [hsh x h1 h2] at h3
      exact ⟨h1, h2, by omega, h4⟩
    · rintro ⟨h1, h2, h3, h4⟩
      refine ⟨⟨⟨h1, h2⟩, ?_⟩, h4⟩
      rw [hsh x h1 h2, h3]; simp
  set f' := Function.update f st.tIdx tz with hf'
  have hne : ∀ k ∈ L, k ≠ st.tIdx := fun k hk e => hzL (e ▸ hk)
  have f'old : ∀ k ∈ L, f' k = f k := fun k hk => Function.update_of_ne (hne k hk) _ _
  have f'new : f' st.tIdx = tz := Function.update_self _ _ _
  have mem' : ∀ k, k ∈ stepL L px py st.tIdx ↔ (k ∈ L ∧ k ≠ px ∧ k ≠ py) ∨ k = st.tIdx := fun k => mem_stepL nL
  have hcntR : ∀ x, cntI f' R x = cntI f R x := fun x =>
    List.countP_congr fun k hk => by rw [f'old k (hRL k hk)]
  have hcnt' : ∀ x, cntI f' (stepL L px py st.tIdx) x = cntI f R x + if x ∈ tz then 1 else 0 := by
    intro x
    rw [← hcntR]
    unfold cntI stepL
    rw [← hR, List.countP_append, List.countP_cons, List.countP_nil, f'new]
    simp
  -- contract
  obtain ⟨a, b, p1, p2⟩ := popPair_idxOf nL hx hy hxy
  have hidx := idxOf_ne hx hy hxy
  have hmm : min (L.idxOf px) (L.idxOf py) ≠ max (L.idxOf px) (L.idxOf py) := by omega
  have hpop : popPair (L.map u) (min (L.idxOf px) (L.idxOf py)) (max (L.idxOf px) (L.idxOf py)) = some (u a, u b, R.map u) := by
    rw [popPair_comm, popPair_map, p1]; rfl
  have hab : ((u a).toFinset = xs.toFinset ∧ (u b).toFinset = ys.toFinset) ∨ ((u a).toFinset = ys.toFinset ∧ (u b).toFinset = xs.toFinset) := by
    rcases p2 with ⟨rfl, rfl⟩ | ⟨rfl, rfl⟩
    · exact Or.inl ⟨toFinset_perm (h.perm _ hx), toFinset_perm (h.perm _ hy)⟩
    · exact Or.inr ⟨toFinset_perm (h.perm _ hy), toFinset_perm (h.perm _ hx)⟩
  have nua : (u a).Nodup := by
    rcases p2 with ⟨rfl, rfl⟩ | ⟨rfl, rfl⟩
    · exact (h.perm _ hx).nodup_iff.2 nx
    · exact (h.perm _ hy).nodup_iff.2 ny
  have nub : (u b).Nodup := by
    rcases p2 with ⟨rfl, rfl⟩ | ⟨rfl, rfl⟩
    · exact (h.perm _ hy).nodup_iff.2 ny
    · exact (h.perm _ hx).nodup_iff.2 nx
  have hint : (u a).toFinset ∩ (u b).toFinset = xs.toFinset ∩ ys.toFinset := by
    rcases hab with ⟨e1, e2⟩ | ⟨e1, e2⟩
    · rw [e1, e2]
    · rw [e1, e2, Finset.inter_comm]
  have mema : ∀ x, (x ∈ u a ∧ x ∉ u b) ∨ (x ∈ u b ∧ x ∉ u a) ↔ (x ∈ xs ∧ x ∉ ys) ∨ (x ∈ ys ∧ x ∉ xs) := by
    intro x
    have e : ∀ (l m : List ι), l.toFinset = m.toFinset → (x ∈ l ↔ x ∈ m) := by
      intro l m hlm
      rw [← List.mem_toFinset, hlm, List.mem_toFinset]
    rcases hab with ⟨e1, e2⟩ | ⟨e1, e2⟩
    · rw [e _ _ e1, e _ _ e2]
    · rw [e _ _ e1, e _ _ e2, or_comm]
  have hcok : countsOk st.hc xs ys = true := by
    unfold countsOk
    refine decide_eq_true fun x hx => ?_
    rw [Finset.mem_inter, List.mem_toFinset, List.mem_toFinset] at hx
    rw [hsh x hx.1 hx.2]; omega
  have hcok' : countsOk st.hc (u a) (u b) = true := by
    unfold countsOk at hcok ⊢
    rw [hint]; exact hcok
  have hlow : lowerCount st.hc (u a) (u b) = lowerCount st.hc xs ys := by
    funext x; unfold lowerCount; rw [hint]
  have hkept : ∀ x, x ∈ enum (keptInds st.hc out (u a) (u b)) ↔ x ∈ xs ∧ x ∈ ys ∧ (0 < cntI f R x ∨ x ∈ out) := by
    intro x
    rw [(he _).2]
    unfold keptInds
    rw [hint]
    simp only [Finset.mem_union, Finset.mem_filter, Finset.mem_inter, List.mem_toFinset]
    constructor
    · rintro (⟨⟨h1, h2⟩, h3⟩ | ⟨h1, h2, h3⟩)
      · rw [hsh x h1 h2] at h3
        exact ⟨h1, h2, Or.inl (by omega)⟩
      · exact ⟨h2, h3, Or.inr h1⟩
    · rintro ⟨h1, h2, h3 | h3⟩
      · refine Or.inl ⟨⟨h1, h2⟩, ?_⟩
        rw [hsh x h1 h2]; omega
      · exact Or.inr ⟨h3, h1, h2⟩
  have hksub : ∀ x ∈ enum (keptInds st.hc out (u a) (u b)), x ∈ u a ∧ x ∈ u b := by
    intro x hx'
    have := (hkept x).1 hx'
    have h2 : x ∈ (u a).toFinset ∩ (u b).toFinset := by
      rw [hint, Finset.mem_inter, List.mem_toFinset, List.mem_toFinset]; exact ⟨this.1, this.2.1⟩
    simpa using h2
  obtain ⟨zs, ez, hzp⟩ : ∃ zs, tensordotInds (u a) (u b) (enum (keptInds st.hc out (u a) (u b))) = .ok zs ∧ zs.Perm tz := by
    unfold tensordotInds
    rw [dotPlan_ok nua nub hksub]
    refine ⟨_, rfl, ?_⟩
    simp only
    rw [uniqueEverseen_of_nodup (he _).1]
    refine perm_of_mem ?_ nz ?_
    · refine List.Nodup.append (List.Nodup.append (he _).1 (nua.filter _) ?_) (nub.filter _) ?_
      · intro x h1 h2
        simp only [List.mem_filter, decide_eq_true_eq] at h2
        exact h2.2 (hksub x h1).2
      · intro x h1 h2
        simp only [List.mem_filter, decide_eq_true_eq] at h2
        rcases List.mem_append.1 h1 with h3 | h3
        · exact h2.2 (hksub x h3).1
        · exact h2.2 (List.mem_filter.1 h3).1
    · intro x
      rw [hz]
      simp only [List.mem_append, hkept, List.mem_filter, decide_eq_true_eq]
      rw [or_assoc, mema x, or_comm, or_assoc]
  have htri : tri tsInds.length (st.merged ++ [(px, py, tz)]) = tri tsInds.length st.merged ++ [(px, py, st.tIdx)] := by
    rw [tri_append, h.idx]; rfl
  have hfin : final (List.range tsInds.length) (tri tsInds.length (st.merged ++ [(px, py, tz)])) = stepL L px py st.tIdx := by
    rw [htri, final_append, ← h.fin]; rfl
  have hlin : lin (List.range tsInds.length) (tri tsInds.length (st.merged ++ [(px, py, tz)])) =
      lin (List.range tsInds.length) (tri tsInds.length st.merged) ++
        [(min (L.idxOf px) (L.idxOf py), max (L.idxOf px) (L.idxOf py))] := by
    rw [htri, lin_append, ← h.fin]; rfl
  have hcs : contractSt enum out (hyperCount tsInds.flatten) tsInds
      (lin (List.range tsInds.length) (tri tsInds.length (st.merged ++ [(px, py, tz)]))) =
      .ok (lowerCount st.hc xs ys, R.map u ++ [zs]) := by
    rw [hlin, contractSt_append _ _ _ _ h.contr]
    unfold contractSt
    rw [if_neg hmm, hpop]
    simp only [hcok', Bool.not_true, Bool.false_eq_true, if_false, ez, hlow]
    rfl
  set u' := Function.update u st.tIdx zs with hu'
  have hu'R : R.map u' ++ [u' st.tIdx] = R.map u ++ [zs] := by
    rw [hu', Function.update_self]
    congr 1
    refine List.map_congr_left fun k hk => ?_
    rw [Function.update_of_ne (hne k (hRL k hk))]
  refine ⟨hcok, ?_, f', u', ?_⟩
  · intro x hx'
    rw [Finset.mem_union, List.mem_toFinset, hg] at hx'
    have : x ∈ xs ∨ x ∈ ys := by
      rcases hx' with h1 | h1
      · exact hzsub x h1
      · exact Or.inl h1.1
    rw [h.i2t x (hpos x this)]
    simp
  · refine ⟨hfin.symm, ?_, ?_, ?_, stepL_sorted h.srt h.lt, ?_, ?_, ?_, ?_, ?_, ?_, ha1, ?_, ?_, ?_, ?_, ?_, ?_⟩
    · rw [htri, Ok.append, ← h.fin]
      exact ⟨h.ok, hx, hy, hxy, hzL, trivial⟩
    · have := h.idx
      show st.tIdx + 1 = _
      simp; omega
    · intro k hk
      show k < st.tIdx + 1
      rcases (mem' k).1 hk with h1 | h1
      · have := h.lt k h1.1; omega
      · omega
    · intro k hk
      show Function.update (Function.update (Function.update st.ts px none) py none) st.tIdx (some tz) k = some (f' k)
      rcases (mem' k).1 hk with ⟨h1, h2, h3⟩ | h1
      · rw [Function.update_of_ne (hne k h1), Function.update_of_ne h3, Function.update_of_ne h2, f'old k h1, h.ts k h1]
      · subst h1; rw [Function.update_self, f'new]
    · intro k hk hkn
      rcases (mem' k).1 hk with ⟨h1, h2, h3⟩ | h1
      · rw [f'old k h1, h.orig k h1 hkn]
      · have := h.idx; omega
    · intro k hk
      rcases (mem' k).1 hk with ⟨h1, h2, h3⟩ | h1
      · rw [f'old k h1]; exact h.nd k h1
      · subst h1; rw [f'new]; exact nz
    · intro k hk x hx'
      rcases (mem' k).1 hk with ⟨h1, h2, h3⟩ | h1
      · rw [f'old k h1] at hx'; exact h.sub k h1 x hx'
      · subst h1; rw [f'new] at hx'; exact hflat x (hzsub x hx')
    · intro x hx'
      have hmemf : ∀ k, k ∈ (stepL L px py st.tIdx).toFinset.filter (fun k => x ∈ f' k) ↔
          (k ∈ L ∧ k ≠ px ∧ k ≠ py ∧ x ∈ f k) ∨ (k = st.tIdx ∧ x ∈ tz) := by
        intro k
        rw [Finset.mem_filter, List.mem_toFinset, mem']
        constructor
        · rintro ⟨⟨h1, h2, h3⟩ | h1, h4⟩
          · rw [f'old k h1] at h4; exact Or.inl ⟨h1, h2, h3, h4⟩
          · subst h1; rw [f'new] at h4; exact Or.inr ⟨rfl, h4⟩
        · rintro (⟨h1, h2, h3, h4⟩ | ⟨rfl, h4⟩)
          · exact ⟨Or.inl ⟨h1, h2, h3⟩, by rw [f'old k h1]; exact h4⟩
          · exact ⟨Or.inr rfl, by rw [f'new]; exact h4⟩
      rw [hcnt'] at hx'
      have hng : x ∉ gone := by
        intro hgx
        obtain ⟨h1, h2, h3, h4⟩ := (hg x).1 hgx
        have : x ∉ tz := by rw [hz]; rintro (h5 | h5 | ⟨-, -, h5 | h5⟩) <;> [exact h5.2 h2; exact h5.2 h1; omega; exact h4 h5]
        rw [if_neg this] at hx'
        omega
      show (if x ∈ gone then none else if x ∈ tz then (st.i2t x).map fun S => (S \ {px, py}) ∪ {st.tIdx} else st.i2t x) = _
      rw [if_neg hng]
      by_cases hxz : x ∈ tz
      · rw [if_pos hxz, h.i2t x (hpos x (hzsub x hxz)), Option.map_some]
        congr 1
        ext k
        rw [hmemf, Finset.mem_union, Finset.mem_sdiff, Finset.mem_filter, List.mem_toFinset]
        simp only [Finset.mem_insert, Finset.mem_singleton, not_or]
        constructor
        · rintro (⟨⟨h1, h2⟩, h3, h4⟩ | h1)
          · exact Or.inl ⟨h1, h3, h4, h2⟩
          · exact Or.inr ⟨h1, hxz⟩
        · rintro (⟨h1, h2, h3, h4⟩ | ⟨h1, -⟩)
          · exact Or.inl ⟨⟨h1, h4⟩, h2, h3⟩
          · exact Or.inr h1
      · rw [if_neg hxz] at hx' ⊢
        have hno : x ∉ xs ∧ x ∉ ys := by
          rw [hz] at hxz
          have h0 : 0 < cntI f R x := by omega
          refine ⟨fun h1 => hxz ?_, fun h2 => hxz ?_⟩
          · by_cases h2 : x ∈ ys
            · exact Or.inr (Or.inr ⟨h1, h2, Or.inl h0⟩)
            · exact Or.inl ⟨h1, h2⟩
          · by_cases h1 : x ∈ xs
            · exact Or.inr (Or.inr ⟨h1, h2, Or.inl h0⟩)
            · exact Or.inr (Or.inl ⟨h2, h1⟩)
        rw [h.i2t x (by rw [hcnt]; omega)]
        congr 1
        ext k
        rw [hmemf, Finset.mem_filter, List.mem_toFinset]
        constructor
        · rintro ⟨h1, h2⟩
          refine Or.inl ⟨h1, ?_, ?_, h2⟩
          · rintro rfl; exact hno.1 h2
          · rintro rfl; exact hno.2 h2
        · rintro (⟨h1, -, -, h4⟩ | ⟨-, h4⟩)
          · exact ⟨h1, h4⟩
          · exact absurd h4 hxz
    · intro x hx'
      show lowerCount st.hc xs ys x = _
      rw [hcnt']
      unfold lowerCount
      by_cases hxs' : x ∈ xs.toFinset ∩ ys.toFinset
      · rw [if_pos hxs']
        rw [Finset.mem_inter, List.mem_toFinset, List.mem_toFinset] at hxs'
        rw [hsh x hxs'.1 hxs'.2]
        by_cases h0 : 0 < cntI f R x
        · rw [if_pos ((hz x).2 (Or.inr (Or.inr ⟨hxs'.1, hxs'.2, Or.inl h0⟩)))]; omega
        · split <;> omega
      · rw [if_neg hxs', h.hc x hx', hcnt]
        rw [Finset.mem_inter, List.mem_toFinset, List.mem_toFinset] at hxs'
        by_cases h1 : x ∈ xs <;> by_cases h2 : x ∈ ys
        · exact absurd ⟨h1, h2⟩ hxs'
        · rw [if_pos ((hz x).2 (Or.inl ⟨h1, h2⟩)), if_pos h1, if_neg h2]; omega
        · rw [if_pos ((hz x).2 (Or.inr (Or.inl ⟨h2, h1⟩))), if_neg h1, if_pos h2]; omega
        · rw [if_neg (fun h3 => (hzsub x h3).elim h1 h2), if_neg h1, if_neg h2]; omega
    · rw [hcs, ← hu'R]
      show _ = Except.ok (lowerCount st.hc xs ys, (stepL L px py st.tIdx).map u')
      unfold stepL
      rw [← hR, List.map_append]
      rfl
    · intro k hk
      rcases (mem' k).1 hk with ⟨h1, h2, h3⟩ | h1
      · rw [f'old k h1, hu', Function.update_of_ne (hne k h1)]; exact h.perm k h1
      · subst h1; rw [f'new, hu', Function.update_self]; exact hzp
    · intro i hi
      show Fused enum out excl width maxW tsInds ((lin (List.range tsInds.length)
        (tri tsInds.length (st.merged ++ [(px, py, tz)]))).take (i + 1)) (st.merged ++ [(px, py, tz)])[i].2.2
      have hll : (lin (List.range tsInds.length) (tri tsInds.length st.merged)).length = st.merged.length := by
        rw [lin_length, tri_length]
      have hi' : i < st.merged.length + 1 := by simpa using hi
      by_cases hi2 : i < st.merged.length
      · rw [hlin, List.take_append_of_le_length (by omega), List.getElem_append_left hi2]
        exact h.merged i hi2
      · have e : i = st.merged.length := by omega
        subst e
        rw [List.take_of_length_le (by rw [hlin, List.length_append, hll]; simp), List.getElem_append_right (by omega)]
        simp only [Nat.sub_self, List.getElem_cons_zero]
        refine ⟨⟨_, _, zs, hcs, by simp, hzp⟩, ⟨w, hw, hwm⟩, ?_, fun x hx' => hflat x (hzsub x hx')⟩
        intro x hx' hxe
        exact hex x hxe (hzsub x hx')
    · intro k hk hkn x hx' hxe
      have hk : k ∈ used (tri tsInds.length (st.merged ++ [(px, py, tz)])) := hk
      rw [htri, used_append] at hk
      rcases List.mem_append.1 hk with h1 | h1
      · exact h.usedx k h1 hkn x hx' hxe
      · simp only [used, List.mem_cons, List.not_mem_nil, or_false] at h1
        rcases h1 with rfl | rfl
        · rw [← h.orig _ hx hkn] at hx'; exact hex x hxe (Or.inl hx')
        · rw [← h.orig _ hy hkn] at hx'; exact hex x hxe (Or.inr hx')
    · intro x hx' hxe
      rcases Finset.mem_union.1 hx' with h1 | h1
      · exact h.mergedx x h1 hxe
      · rw [Finset.mem_inter, List.mem_toFinset, List.mem_toFinset] at h1
        exact hex x hxe (Or.inl h1.1)
    · intro e hW x hx' hxa
      show lowerCount st.hc xs ys x = 0
      by_cases hxs' : x ∈ st.avail
      · exact ha2 x hxs' hxa
      · have h0 := h.free e hW x hx' hxs'
        unfold lowerCount
        rw [if_neg, h0]
        intro hm
        rw [Finset.mem_inter, List.mem_toFinset, List.mem_toFinset] at hm
        rw [hsh x hm.1 hm.2] at h0
        omega

theorem card_filter_eq {L : List ℕ} (hn : L.Nodup) (x : ι) : (L.toFinset.filter fun k => x ∈ f k).card = cntI f L x := by
  rw [show (L.toFinset.filter fun k => x ∈ f k) = (L.filter fun k => x ∈ f k).toFinset by ext; simp,
    List.toFinset_card_of_nodup (hn.filter _), ← List.countP_eq_length_filter]
  rfl

theorem EnumOk.length {enum : Finset ℕ → List ℕ} (he : EnumOk enum) (s : Finset ℕ) : (enum s).length = s.card := by
  rw [← List.toFinset_card_of_nodup (he s).1]
  congr 1
  ext x
  rw [List.mem_toFinset, (he s).2]

/-- The loop ends and keeps the invariant. -/
theorem fuseLoop_spec [DecidableLT W] {g : PyRng σ} (hg : g.Ok) {enumN : Finset ℕ → List ℕ} (heN : EnumOk enumN) (he : EnumOk enum)
    (hwid : ∀ xs : List ι, (∀ x ∈ xs, x ∈ tsInds.flatten) → ∃ w, width xs = .ok w) (N : ℕ) : ∀ (s : σ) (st : FuseState ι) f u L,
    FuInv enum out excl width maxW tsInds st f u L → L.length + st.avail.length ≤ N →
    ∃ st' f' u' L', (∀ fuel, L.length + st.avail.length < fuel →
        fuseLoop g enumN out excl width maxW fuel s st = some (.ok st')) ∧
      FuInv enum out excl width maxW tsInds st' f' u' L' ∧ st'.avail = [] := by
  induction N with
  | zero =>
    intro s st f u L h hN
    have ha : st.avail = [] := List.eq_nil_of_length_eq_zero (by omega)
    refine ⟨st, f, u, L, fun fuel hf => ?_, h, ha⟩
    obtain ⟨k, rfl⟩ : ∃ k, fuel = k + 1 := ⟨fuel - 1, by omega⟩
    unfold fuseLoop
    rw [if_pos ha]
  | succ N ih =>
    intro s st f u L h hN
    by_cases ha : st.avail = []
    · refine ⟨st, f, u, L, fun fuel hf => ?_, h, ha⟩
      obtain ⟨k, rfl⟩ : ∃ k, fuel = k + 1 := ⟨fuel - 1, by omega⟩
      unfold fuseLoop
      rw [if_pos ha]
    have hlen : 0 < st.avail.length := List.length_pos_iff.2 ha
    have hr := hg.range st.avail.length s hlen
    set r := g.randrange st.avail.length s with hrdef
    set index := st.avail[r.1] with hindex
    set av := st.avail.eraseIdx r.1 with hav
    have havl : av.length + 1 = st.avail.length := by
      rw [hav, List.length_eraseIdx_of_lt hr]; omega
    have hsub : ∀ x ∈ av, x ∈ st.avail := fun x hx => List.mem_of_mem_eraseIdx hx
    have hcov : ∀ x ∈ st.avail, x ∉ av → x = index := by
      intro x hx hxa
      obtain ⟨i, hi, rfl⟩ := List.getElem_of_mem hx
      by_contra hne
      exact hxa (List.mem_eraseIdx_iff_getElem.2 ⟨i, hi, fun e => hne (by subst e; rfl), rfl⟩)
    have hif : index ∈ tsInds.flatten := h.availc _ (List.getElem_mem _)
    have skip : ∀ s', (excl = ∅ → (∀ w, ¬ maxW < w) → st.hc index = 0) → ∃ st' f' u' L',
        (∀ fuel, L.length + st.avail.length ≤ fuel →
          fuseLoop g enumN out excl width maxW fuel s' { st with avail := av } = some (.ok st')) ∧
        FuInv enum out excl width maxW tsInds st' f' u' L' ∧ st'.avail = [] := by
      intro s' h0
      obtain ⟨st', f', u', L', r1, r2⟩ := ih s' { st with avail := av } f u L
        (h.drop hsub fun e hw x hx hxa => by rw [hcov x hx hxa]; exact h0 e hw) (by show L.length + av.length ≤ N; omega)
      exact ⟨st', f', u', L', fun fuel hf => r1 fuel (by show L.length + av.length < fuel; omega), r2⟩
    have unf : ∀ fuel, fuseLoop g enumN out excl width maxW (fuel + 1) s st =
        if st.hc index = 0 then fuseLoop g enumN out excl width maxW fuel r.2 { st with avail := av }
        else match st.i2t index with
          | none => some (.error .keyError)
          | some S =>
            if (enumN S).length < 2 then some (.error .valueError)
            else
              let q := g.sample2 (enumN S).length r.2
              match (enumN S)[q.1.1]?, (enumN S)[q.1.2]? with
              | some px, some py =>
                match st.ts px, st.ts py with
                | some tx, some ty =>
                  if ∃ x ∈ excl, x ∈ tx ∨ x ∈ ty then
                    fuseLoop g enumN out excl width maxW fuel q.2 { st with avail := av }
                  else if index ∉ tx.toFinset ∩ ty.toFinset then some (.error .assertionError)
                  else if !countsOk st.hc tx ty then some (.error .assertionError)
                  else
                    let tz := fusedInds st.hc out tx ty
                    match width tz with
                    | .error e => some (.error e)
                    | .ok w =>
                      if maxW < w then fuseLoop g enumN out excl width maxW fuel q.2 { st with avail := av }
                      else
                        let gone := ((tx.toFinset ∩ ty.toFinset).filter fun x => ¬ 1 < st.hc x) \ out
                        if ∃ x ∈ tz.toFinset ∪ gone, st.i2t x = none then some (.error .keyError)
                        else
                          let hc := lowerCount st.hc tx ty
                          fuseLoop g enumN out excl width maxW fuel q.2
                            { ts := Function.update (Function.update (Function.update st.ts px none) py none) st.tIdx (some tz)
                              i2t := fun x =>
                                if x ∈ gone then none
                                else if x ∈ tz then (st.i2t x).map fun S => (S \ {px, py}) ∪ {st.tIdx}
                                else st.i2t x
                              hc := hc
                              tIdx := st.tIdx + 1
                              avail := if hc index = 0 then av else av ++ [index]
                              mergedInds := st.mergedInds ∪ (tx.toFinset ∩ ty.toFinset)
                              merged := st.merged ++ [(px, py, tz)] }
                | _, _ => some (.error .keyError)
              | _, _ => some (.error .indexError) := by
      intro fuel
      rw [fuseLoop, if_neg ha]
      simp only
      rw [← hrdef, List.getElem?_eq_getElem hr]
      rfl
    by_cases h0 : st.hc index = 0
    · obtain ⟨st', f', u', L', r1, r2⟩ := skip r.2 fun _ _ => h0
      refine ⟨st', f', u', L', fun fuel hf => ?_, r2⟩
      obtain ⟨k, rfl⟩ : ∃ k, fuel = k + 1 := ⟨fuel - 1, by omega⟩
      rw [unf, if_pos h0]
      exact r1 k (by omega)
    have hc2 : 2 ≤ cntI f L index := by
      have := h.hc index hif
      omega
    have hi2t := h.i2t index (by omega)
    set S := L.toFinset.filter fun k => index ∈ f k with hS
    have hlenS : (enumN S).length = cntI f L index := by rw [heN.length, hS, card_filter_eq h.nodup]
    set q := g.sample2 (enumN S).length r.2 with hq
    obtain ⟨q1, q2, q3⟩ := hg.sample (enumN S).length r.2 (by omega)
    rw [← hq] at q1 q2 q3
    set px := (enumN S)[q.1.1] with hpx
    set py := (enumN S)[q.1.2] with hpy
    have hxm : px ∈ S := ((heN S).2 _).1 (List.getElem_mem _)
    have hym : py ∈ S := ((heN S).2 _).1 (List.getElem_mem _)
    rw [hS, Finset.mem_filter, List.mem_toFinset] at hxm hym
    have hxy : px ≠ py := fun e => q3 (((heN S).1.getElem_inj_iff (hi := q1) (hj := q2)).1 e)
    have unf2 : ∀ fuel, fuseLoop g enumN out excl width maxW (fuel + 1) s st =
        if ∃ x ∈ excl, x ∈ f px ∨ x ∈ f py then fuseLoop g enumN out excl width maxW fuel q.2 { st with avail := av }
        else if index ∉ (f px).toFinset ∩ (f py).toFinset then some (.error .assertionError)
        else if !countsOk st.hc (f px) (f py) then some (.error .assertionError)
        else
          match width (fusedInds st.hc out (f px) (f py)) with
          | .error e => some (.error e)
          | .ok w =>
            if maxW < w then fuseLoop g enumN out excl width maxW fuel q.2 { st with avail := av }
            else
              if ∃ x ∈ (fusedInds st.hc out (f px) (f py)).toFinset ∪
                  (((f px).toFinset ∩ (f py).toFinset).filter fun x => ¬ 1 < st.hc x) \ out, st.i2t x = none then
                some (.error .keyError)
              else
                fuseLoop g enumN out excl width maxW fuel q.2
                  { ts := Function.update (Function.update (Function.update st.ts px none) py none) st.tIdx
                      (some (fusedInds st.hc out (f px) (f py)))
                    i2t := fun x =>
                      if x ∈ (((f px).toFinset ∩ (f py).toFinset).filter fun x => ¬ 1 < st.hc x) \ out then none
                      else if x ∈ fusedInds st.hc out (f px) (f py) then (st.i2t x).map fun S => (S \ {px, py}) ∪ {st.tIdx}
                      else st.i2t x
                    hc := lowerCount st.hc (f px) (f py)
                    tIdx := st.tIdx + 1
                    avail := if lowerCount st.hc (f px) (f py) index = 0 then av else av ++ [index]
                    mergedInds := st.mergedInds ∪ ((f px).toFinset ∩ (f py).toFinset)
                    merged := st.merged ++ [(px, py, fusedInds st.hc out (f px) (f py))] } := by
      intro fuel
      rw [unf, if_neg h0, hi2t]
      simp only
      rw [if_neg (by omega), ← hq, List.getElem?_eq_getElem q1, List.getElem?_eq_getElem q2]
      simp only
      rw [← hpx, ← hpy, h.ts px hxm.1, h.ts py hym.1]
    clear unf
    by_cases hexc : ∃ x ∈ excl, x ∈ f px ∨ x ∈ f py
    · obtain ⟨st', f', u', L', r1, r2⟩ := skip q.2 fun e _ => by
        obtain ⟨x, hx, -⟩ := hexc
        rw [e] at hx; simp at hx
      refine ⟨st', f', u', L', fun fuel hf => ?_, r2⟩
      obtain ⟨k, rfl⟩ : ∃ k, fuel = k + 1 := ⟨fuel - 1, by omega⟩
      rw [unf2, if_pos hexc]
      exact r1 k (by omega)
    have hexc' : ∀ x ∈ excl, ¬ (x ∈ f px ∨ x ∈ f py) := fun x hx hh => hexc ⟨x, hx, hh⟩
    have hshare : index ∈ (f px).toFinset ∩ (f py).toFinset := by
      rw [Finset.mem_inter, List.mem_toFinset, List.mem_toFinset]; exact ⟨hxm.2, hym.2⟩
    have hcok : countsOk st.hc (f px) (f py) = true := by
      unfold countsOk
      refine decide_eq_true fun x hx => ?_
      rw [Finset.mem_inter, List.mem_toFinset, List.mem_toFinset] at hx
      rw [h.hc x (h.sub px hxm.1 x hx.1)]
      have : 2 ≤ cntI f L x := by
        unfold cntI
        rw [(perm_erase2 hxm.1 hym.1 hxy).countP_eq, List.countP_cons, List.countP_cons]
        simp only [decide_eq_true_eq]
        rw [if_pos hx.1, if_pos hx.2]
        omega
      omega
    obtain ⟨w, hw⟩ := hwid (fusedInds st.hc out (f px) (f py)) fun x hx => by
      rcases mem_fusedInds.1 hx with h1 | h1 | h1
      · exact h.sub px hxm.1 x h1.1
      · exact h.sub py hym.1 x h1.1
      · exact h.sub px hxm.1 x h1.1
    by_cases hwm : maxW < w
    · obtain ⟨st', f', u', L', r1, r2⟩ := skip q.2 fun _ hW => absurd hwm (hW w)
      refine ⟨st', f', u', L', fun fuel hf => ?_, r2⟩
      obtain ⟨k, rfl⟩ : ∃ k, fuel = k + 1 := ⟨fuel - 1, by omega⟩
      rw [unf2, if_neg hexc, if_neg (not_not.2 hshare), hcok, hw]
      simp only [Bool.not_true, Bool.false_eq_true, if_false, hwm, if_true]
      exact r1 k (by omega)
    · obtain ⟨-, s2, f', u', s3⟩ := h.step he hxm.1 hym.1 hxy hexc' hw hwm
        (avail := if lowerCount st.hc (f px) (f py) index = 0 then av else av ++ [index])
        (fun x hx => by
          split at hx
          · exact h.availc x (hsub x hx)
          · rcases List.mem_append.1 hx with h1 | h1
            · exact h.availc x (hsub x h1)
            · rw [List.mem_singleton] at h1; rw [h1]; exact hif)
        (fun x hx hxa => by
          split at hxa
          · rename_i hz; rw [hcov x hx hxa]; exact hz
          · exfalso
            rw [List.mem_append, List.mem_singleton, not_or] at hxa
            exact hxa.2 (hcov x hx hxa.1))
      have hl2 := length_stepL (z := st.tIdx) hxm.1 hym.1 hxy
      have hal : (if lowerCount st.hc (f px) (f py) index = 0 then av else av ++ [index]).length ≤ st.avail.length := by
        split
        · omega
        · simp; omega
      obtain ⟨st', f'', u'', L', r1, r2⟩ := ih q.2 _ f' u' _ s3 (by
        show (stepL L px py st.tIdx).length + (if lowerCount st.hc (f px) (f py) index = 0 then av else av ++ [index]).length ≤ N
        omega)
      refine ⟨st', f'', u'', L', fun fuel hf => ?_, r2⟩
      obtain ⟨k, rfl⟩ : ∃ k, fuel = k + 1 := ⟨fuel - 1, by omega⟩
      rw [unf2, if_neg hexc, if_neg (not_not.2 hshare), hcok, hw]
      simp only [Bool.not_true, Bool.false_eq_true, if_false, hwm]
      rw [if_neg (by rintro ⟨x, hx, hxn⟩; exact s2 x hx hxn)]
      exact r1 k (by
        show (stepL L px py st.tIdx).length + (if lowerCount st.hc (f px) (f py) index = 0 then av else av ++ [index]).length < k
        omega)

end TNCO
