import Verif.Model.RandomPath
import Verif.Lemmas.Linear
import Verif.Lemmas.Merge
import Verif.Lemmas.Unique

/-! Random contraction paths: the loop over a component. -/

namespace TNCO
open Linear
variable {ι σ : Type} [DecidableEq ι]

theorem swapLast_spec {a : List ℕ} {i : ℕ} (hi : i < a.length) :
    (swapLast a i).Perm a ∧ (swapLast a i).length = a.length ∧ (swapLast a i).getD ((swapLast a i).length - 1) 0 = a[i] := by
  have h1 : a.length - 1 < a.length := by omega
  have e : swapLast a i = (a.set i a[a.length - 1]).set (a.length - 1) a[i] := by
    unfold swapLast
    rw [List.getD_eq_getElem _ _ h1, List.getD_eq_getElem _ _ hi]
  have hl : (swapLast a i).length = a.length := by simp [swapLast]
  refine ⟨?_, hl, ?_⟩
  · rw [e]; exact List.set_set_perm hi h1
  · rw [hl, e, List.getD_eq_getElem _ _ (by simp; omega), List.getElem_set_self]

/-- The indices of tensor `t`. -/
abbrev lab (ts : List (Finset ℕ)) (t : ℕ) : Finset ℕ := ts.getD t ∅

theorem lab_append_lt {ts : List (Finset ℕ)} {zs : Finset ℕ} {t : ℕ} (h : t < ts.length) : lab (ts ++ [zs]) t = lab ts t := by
  unfold lab
  rw [List.getD_append _ _ _ _ h]

theorem lab_append_self (ts : List (Finset ℕ)) (zs : Finset ℕ) : lab (ts ++ [zs]) ts.length = zs := by
  unfold lab
  rw [List.getD_append_right _ _ _ _ (by omega)]
  simp

theorem lab_ge {ts : List (Finset ℕ)} {t : ℕ} (h : ts.length ≤ t) : lab ts t = ∅ := List.getD_eq_default _ _ h

theorem lt_of_mem_lab {ts : List (Finset ℕ)} {t x : ℕ} (h : x ∈ lab ts t) : t < ts.length := by
  by_contra h'
  rw [lab_ge (by omega)] at h
  simp at h

/-- How many of the tensors in `L` have index `x`. -/
def cnt (ts : List (Finset ℕ)) (L : List ℕ) (x : ℕ) : ℕ := L.countP fun t => x ∈ lab ts t

/-- Index `x` occurs in a tensor of the bracketing. -/
def InTerm (ts0 : List (Finset ℕ)) (u : Term) (x : ℕ) : Prop := ∃ k ∈ u.tensors, x ∈ lab ts0 k

/-- Two bracketings share an index. -/
def TermShare (ts0 : List (Finset ℕ)) (u : Term) : Prop :=
  ∃ a b, u = .pair a b ∧ ∃ x, InTerm ts0 a x ∧ InTerm ts0 b x

/-- New labels are larger than all others. -/
def Inc : List ℕ → List (ℕ × ℕ × ℕ) → Prop
  | _, [] => True
  | L, (x, y, z) :: c => (∀ a ∈ L, a < z) ∧ Inc (stepL L x y z) c

theorem Inc.append {c d : List (ℕ × ℕ × ℕ)} {L : List ℕ} : Inc L (c ++ d) ↔ Inc L c ∧ Inc (final L c) d := by
  induction c generalizing L with
  | nil => simp [Inc, final]
  | cons t c ih =>
    obtain ⟨x, y, z⟩ := t
    simp only [List.cons_append, Inc, final, ih]
    tauto

structure RInv (ts0 : List (Finset ℕ)) (col : ℕ → ℕ) (c : ℕ) (st : RState) (avail : List ℕ) (con : Finset ℕ)
    (path : List (ℕ × ℕ × ℕ)) (L : List ℕ) : Prop where
  fin : L = final (List.range ts0.length) path
  ok : Ok (List.range ts0.length) path
  inc : Inc (List.range ts0.length) path
  lt : ∀ t ∈ L, t < st.ts.length
  srt : L.Pairwise (· < ·)
  len : ts0.length ≤ st.ts.length
  pre : ∀ t < ts0.length, lab st.ts t = lab ts0 t
  mono : ∀ t x y, x ∈ lab st.ts t → y ∈ lab st.ts t → col x = col y
  nd : ∀ x, col x = c → (st.i2t x).Nodup
  i2t : ∀ x, col x = c → ∀ t, t ∈ st.i2t x ↔ x ∈ lab st.ts t
  conlt : ∀ t ∈ con, t < st.ts.length
  dead : ∀ x, col x = c → ∀ t ∈ st.i2t x, (t ∈ con ↔ t ∉ L)
  hc : ∀ x, col x = c → st.hc x = if 2 ≤ cnt st.ts L x then some ((cnt st.ts L x : ℤ) - 1) else none
  availc : ∀ x ∈ avail, col x = c
  popped : ∀ x, col x = c → x ∉ avail → st.hc x = none
  usedc : ∀ a ∈ used path, ∃ x ∈ lab st.ts a, col x = c
  leaf : ∀ t ∈ L, ∀ x ∈ lab st.ts t, col x = c → InTerm ts0 (vals .tensor path t) x
  closed : ∀ t ∈ L, ∀ x, col x = c → InTerm ts0 (vals .tensor path t) x →
    x ∈ lab st.ts t ∨ ∀ t' ∈ L, t' ≠ t → ¬ InTerm ts0 (vals .tensor path t') x
  share : ∀ p ∈ prods .tensor path, TermShare ts0 p

/-- What the loop may not touch. -/
structure Frame (col : ℕ → ℕ) (c : ℕ) (st st' : RState) : Prop where
  i2t : ∀ x, col x ≠ c → st'.i2t x = st.i2t x
  hc : ∀ x, col x ≠ c → st'.hc x = st.hc x
  len : st.ts.length ≤ st'.ts.length
  pre : ∀ t < st.ts.length, lab st'.ts t = lab st.ts t
  new : ∀ t x, st.ts.length ≤ t → x ∈ lab st'.ts t → col x = c

theorem Frame.refl (col : ℕ → ℕ) (c : ℕ) (st : RState) : Frame col c st st :=
  ⟨fun _ _ => rfl, fun _ _ => rfl, le_refl _, fun _ _ => rfl, fun t x h hx => by rw [lab_ge h] at hx; simp at hx⟩

theorem Frame.trans {col : ℕ → ℕ} {c : ℕ} {a b d : RState} (h : Frame col c a b) (h' : Frame col c b d) : Frame col c a d where
  i2t x hx := by rw [h'.i2t x hx, h.i2t x hx]
  hc x hx := by rw [h'.hc x hx, h.hc x hx]
  len := h.len.trans h'.len
  pre t ht := by rw [h'.pre t (lt_of_lt_of_le ht h.len), h.pre t ht]
  new t x ht hx := by
    by_cases h1 : b.ts.length ≤ t
    · exact h'.new t x h1 hx
    · rw [h'.pre t (by omega)] at hx
      exact h.new t x ht hx

theorem used_append (c d : List (ℕ × ℕ × ℕ)) : used (c ++ d) = used c ++ used d := by
  induction c with
  | nil => rfl
  | cons t c ih => obtain ⟨x, y, z⟩ := t; simp [used, ih]

theorem RInv.nodup {ts0 col c st avail con path L} (h : RInv ts0 col c st avail con path L) : L.Nodup :=
  h.srt.imp fun hab => Nat.ne_of_lt hab

theorem perm_erase2 {L : List ℕ} {x y : ℕ} (hx : x ∈ L) (hy : y ∈ L) (hxy : x ≠ y) :
    L.Perm (x :: y :: (L.erase x).erase y) :=
  (List.perm_cons_erase hx).trans ((List.perm_cons_erase ((List.mem_erase_of_ne hxy.symm).2 hy)).cons _)

/-- The new set of indices. -/
def newInds (hc : ℕ → Option ℤ) (xs ys : Finset ℕ) : Finset ℕ :=
  ((xs \ ys) ∪ (ys \ xs)) ∪ (xs ∩ ys).filter fun x => lowerR hc (xs ∩ ys) x ≠ none

/-- One contraction. -/
theorem RInv.step {ts0 : List (Finset ℕ)} {col : ℕ → ℕ} {c : ℕ} {st : RState} {avail : List ℕ} {con : Finset ℕ}
    {path : List (ℕ × ℕ × ℕ)} {L : List ℕ} (h : RInv ts0 col c st avail con path L) {tx ty x0 : ℕ}
    (hx : tx ∈ L) (hy : ty ∈ L) (hxy : tx ≠ ty) (hc0 : col x0 = c) (hx0 : x0 ∈ lab st.ts tx) (hy0 : x0 ∈ lab st.ts ty) :
    let zs := newInds st.hc (lab st.ts tx) (lab st.ts ty)
    let st' : RState := ⟨st.ts ++ [zs], fun x => if x ∈ zs then st.i2t x ++ [st.ts.length] else st.i2t x,
      lowerR st.hc (lab st.ts tx ∩ lab st.ts ty)⟩
    (∀ x ∈ lab st.ts tx ∩ lab st.ts ty, st.hc x ≠ none) ∧
    RInv ts0 col c st' avail (con ∪ {tx, ty}) (path ++ [(tx, ty, st.ts.length)]) (stepL L tx ty st.ts.length) ∧
    Frame col c st st' := by
  intro zs st'
  set xs := lab st.ts tx with hxs
  set ys := lab st.ts ty with hys
  have nL := h.nodup
  have hzL : st.ts.length ∉ L := fun hm => lt_irrefl _ (h.lt _ hm)
  have cx : ∀ x ∈ xs, col x = c := fun x hx' => (h.mono tx x x0 hx' hx0).trans hc0
  have cy : ∀ x ∈ ys, col x = c := fun x hx' => (h.mono ty x x0 hx' hy0).trans hc0
  set R := (L.erase tx).erase ty with hR
  have hperm : L.Perm (tx :: ty :: R) := perm_erase2 hx hy hxy
  have hcnt : ∀ x, cnt st.ts L x = (if x ∈ xs then 1 else 0) + ((if x ∈ ys then 1 else 0) + cnt st.ts R x) := by
    intro x
    unfold cnt
    rw [hperm.countP_eq, List.countP_cons, List.countP_cons]
    simp only [decide_eq_true_eq]
    rw [← hxs, ← hys]
    ring
  have hRL : ∀ t ∈ R, t ∈ L := fun t ht => hperm.mem_iff.2 (by simp [ht])
  have hcntR : ∀ x, cnt st'.ts R x = cnt st.ts R x := by
    intro x
    unfold cnt
    refine List.countP_congr fun t ht => ?_
    rw [show st'.ts = st.ts ++ [zs] from rfl, lab_append_lt (h.lt t (hRL t ht))]
  have hcnt' : ∀ x, cnt st'.ts (stepL L tx ty st.ts.length) x = cnt st.ts R x + if x ∈ zs then 1 else 0 := by
    intro x
    rw [← hcntR]
    unfold cnt stepL
    rw [← hR, List.countP_append, List.countP_cons, List.countP_nil, show st'.ts = st.ts ++ [zs] from rfl, lab_append_self]
    simp
  have hcs : ∀ x ∈ xs ∩ ys, st.hc x = some (1 + (cnt st.ts R x : ℤ)) := by
    intro x hx'
    rw [Finset.mem_inter] at hx'
    rw [h.hc x (cx x hx'.1), hcnt, if_pos hx'.1, if_pos hx'.2, if_pos (by omega)]
    congr 1; push_cast; ring
  have hlow : ∀ x ∈ xs ∩ ys, lowerR st.hc (xs ∩ ys) x = if cnt st.ts R x = 0 then none else some (cnt st.ts R x : ℤ) := by
    intro x hx'
    unfold lowerR
    rw [if_pos hx', hcs x hx']
    simp only
    split_ifs <;> first | rfl | omega | (congr 1; ring)
  have hz : ∀ x, x ∈ zs ↔ (x ∈ xs ∧ x ∉ ys) ∨ (x ∈ ys ∧ x ∉ xs) ∨ (x ∈ xs ∧ x ∈ ys ∧ 1 ≤ cnt st.ts R x) := by
    intro x
    show x ∈ newInds st.hc xs ys ↔ _
    unfold newInds
    simp only [Finset.mem_union, Finset.mem_sdiff, Finset.mem_filter]
    constructor
    · rintro ((h1 | h1) | ⟨h1, h2⟩)
      · exact Or.inl h1
      · exact Or.inr (Or.inl h1)
      · rw [hlow x h1] at h2
        rw [Finset.mem_inter] at h1
        refine Or.inr (Or.inr ⟨h1.1, h1.2, ?_⟩)
        by_contra h3
        rw [if_pos (by omega)] at h2
        exact h2 rfl
    · rintro (h1 | h1 | ⟨h1, h2, h3⟩)
      · exact Or.inl (Or.inl h1)
      · exact Or.inl (Or.inr h1)
      · have h4 : x ∈ xs ∩ ys := Finset.mem_inter.2 ⟨h1, h2⟩
        refine Or.inr ⟨h4, ?_⟩
        rw [hlow x h4, if_neg (by omega)]
        simp
  have cz : ∀ x ∈ zs, col x = c := by
    intro x hx'
    rcases (hz x).1 hx' with h1 | h1 | h1
    · exact cx x h1.1
    · exact cy x h1.1
    · exact cx x h1.1
  have lablt : ∀ t < st.ts.length, lab st'.ts t = lab st.ts t := fun t ht => lab_append_lt ht
  have labz : lab st'.ts st.ts.length = zs := lab_append_self _ _
  have mem' : ∀ t, t ∈ stepL L tx ty st.ts.length ↔ (t ∈ L ∧ t ≠ tx ∧ t ≠ ty) ∨ t = st.ts.length := fun t => mem_stepL nL
  have hvals : ∀ t, vals .tensor (path ++ [(tx, ty, st.ts.length)]) t =
      if t = st.ts.length then .pair (vals .tensor path tx) (vals .tensor path ty) else vals .tensor path t := by
    intro t
    rw [vals_append]
    simp only [vals, Function.update_apply]
  have hne : ∀ t ∈ L, t ≠ st.ts.length := fun t ht e => hzL (e ▸ ht)
  have hinz : ∀ x, InTerm ts0 (.pair (vals .tensor path tx) (vals .tensor path ty)) x ↔
      InTerm ts0 (vals .tensor path tx) x ∨ InTerm ts0 (vals .tensor path ty) x := by
    intro x
    unfold InTerm
    simp only [Term.tensors, List.mem_append]
    constructor
    · rintro ⟨k, h1 | h1, h2⟩
      · exact Or.inl ⟨k, h1, h2⟩
      · exact Or.inr ⟨k, h1, h2⟩
    · rintro (⟨k, h1, h2⟩ | ⟨k, h1, h2⟩)
      · exact ⟨k, Or.inl h1, h2⟩
      · exact ⟨k, Or.inr h1, h2⟩
  have hRpos : ∀ t ∈ L, t ≠ tx → t ≠ ty → ∀ x ∈ lab st.ts t, 1 ≤ cnt st.ts R x := by
    intro t ht h1 h2 x hx'
    refine List.countP_pos_iff.2 ⟨t, ?_, by simpa using hx'⟩
    rw [hR, (nL.erase tx).mem_erase_iff, nL.mem_erase_iff]
    exact ⟨h2, h1, ht⟩
  have hokfin : Ok (final (List.range ts0.length) path) [(tx, ty, st.ts.length)] := by
    rw [← h.fin]; exact ⟨hx, hy, hxy, hzL, trivial⟩
  refine ⟨fun x hx' => by rw [hcs x hx']; simp, ?_, ?_⟩
  · refine ⟨?_, ?_, ?_, ?_, ?_, ?_, ?_, ?_, ?_, ?_, ?_, ?_, ?_, h.availc, ?_, ?_, ?_, ?_, ?_⟩
    · rw [final_append, ← h.fin]; rfl
    · rw [Ok.append]; exact ⟨h.ok, hokfin⟩
    · rw [Inc.append, ← h.fin]; exact ⟨h.inc, h.lt, trivial⟩
    · intro t ht
      show t < (st.ts ++ [zs]).length
      rw [List.length_append, List.length_singleton]
      rcases (mem' t).1 ht with h1 | h1
      · have := h.lt t h1.1; omega
      · omega
    · unfold stepL
      rw [List.pairwise_append]
      refine ⟨h.srt.sublist (List.erase_sublist.trans List.erase_sublist), List.pairwise_singleton _ _, ?_⟩
      intro a ha b hb
      rw [List.mem_singleton] at hb
      subst hb
      exact h.lt a (hRL a ha)
    · show ts0.length ≤ (st.ts ++ [zs]).length
      have := h.len
      simp; omega
    · intro t ht
      rw [lablt t (lt_of_lt_of_le ht h.len), h.pre t ht]
    · intro t x y h1 h2
      by_cases ht : t < st.ts.length
      · rw [lablt t ht] at h1 h2; exact h.mono t x y h1 h2
      · by_cases hte : t = st.ts.length
        · subst hte; rw [labz] at h1 h2; rw [cz x h1, cz y h2]
        · rw [lab_ge (by show (st.ts ++ [zs]).length ≤ t; simp; omega)] at h1; simp at h1
    · intro x hxc
      show (if x ∈ zs then st.i2t x ++ [st.ts.length] else st.i2t x).Nodup
      split
      · refine List.Nodup.append (h.nd x hxc) (List.nodup_singleton _) ?_
        intro t h1 h2
        rw [List.mem_singleton] at h2
        rw [h2, h.i2t x hxc] at h1
        exact lt_irrefl _ (lt_of_mem_lab h1)
      · exact h.nd x hxc
    · intro x hxc t
      show t ∈ (if x ∈ zs then st.i2t x ++ [st.ts.length] else st.i2t x) ↔ _
      by_cases ht : t < st.ts.length
      · rw [lablt t ht, ← h.i2t x hxc]
        split
        · simp; omega
        · rfl
      · have hno : t ∉ st.i2t x := fun hm => ht (lt_of_mem_lab ((h.i2t x hxc t).1 hm))
        by_cases hte : t = st.ts.length
        · subst hte
          rw [labz]
          split
          · rename_i hxz; simp [hxz]
          · rename_i hxz; simp [hxz, hno]
        · rw [lab_ge (by show (st.ts ++ [zs]).length ≤ t; simp; omega)]
          split
          · simp [hno, hte]
          · simp [hno]
    · intro t ht
      show t < (st.ts ++ [zs]).length
      rw [List.length_append, List.length_singleton]
      simp only [Finset.mem_union, Finset.mem_insert, Finset.mem_singleton] at ht
      rcases ht with h1 | rfl | rfl
      · have := h.conlt t h1; omega
      · have := h.lt _ hx; omega
      · have := h.lt _ hy; omega
    · intro x hxc t ht
      have ht : t ∈ (if x ∈ zs then st.i2t x ++ [st.ts.length] else st.i2t x) := ht
      rw [mem']
      have hcase : t ∈ st.i2t x ∨ t = st.ts.length := by
        split at ht
        · simpa using ht
        · exact Or.inl ht
      rcases hcase with h1 | h1
      · have h2 := h.dead x hxc t h1
        have h3 : t ≠ st.ts.length := Nat.ne_of_lt (lt_of_mem_lab ((h.i2t x hxc t).1 h1))
        simp only [Finset.mem_union, Finset.mem_insert, Finset.mem_singleton]
        tauto
      · subst h1
        have h3 : st.ts.length ∉ con := by
          intro hm
          exact lt_irrefl _ (h.conlt _ hm)
        have := hne tx hx
        have := hne ty hy
        simp only [Finset.mem_union, Finset.mem_insert, Finset.mem_singleton]
        tauto
    · intro x hxc
      show lowerR st.hc (xs ∩ ys) x = _
      rw [hcnt']
      by_cases hxs' : x ∈ xs ∩ ys
      · rw [hlow x hxs']
        rw [Finset.mem_inter] at hxs'
        by_cases h0 : cnt st.ts R x = 0
        · have : x ∉ zs := by rw [hz]; rintro (h1 | h1 | h1) <;> [exact h1.2 hxs'.2; exact h1.2 hxs'.1; omega]
          rw [if_pos h0, if_neg this, if_neg (by omega)]
        · have : x ∈ zs := (hz x).2 (Or.inr (Or.inr ⟨hxs'.1, hxs'.2, by omega⟩))
          rw [if_neg h0, if_pos this, if_pos (by omega)]
          congr 1; push_cast; ring
      · have e : lowerR st.hc (xs ∩ ys) x = st.hc x := by unfold lowerR; rw [if_neg hxs']
        have e2 : (cnt st.ts R x + if x ∈ zs then 1 else 0) = cnt st.ts L x := by
          rw [hcnt]
          rw [Finset.mem_inter] at hxs'
          by_cases h1 : x ∈ xs <;> by_cases h2 : x ∈ ys
          · exact absurd ⟨h1, h2⟩ hxs'
          · rw [if_pos ((hz x).2 (Or.inl ⟨h1, h2⟩)), if_pos h1, if_neg h2]; omega
          · rw [if_pos ((hz x).2 (Or.inr (Or.inl ⟨h2, h1⟩))), if_neg h1, if_pos h2]; omega
          · rw [if_neg (by rw [hz]; tauto), if_neg h1, if_neg h2]; omega
        rw [e, e2, h.hc x hxc]
    · intro x hxc hxa
      have := h.popped x hxc hxa
      show lowerR st.hc (xs ∩ ys) x = none
      unfold lowerR
      rw [this]
      split <;> rfl
    · intro a ha
      rw [used_append] at ha
      rcases List.mem_append.1 ha with h1 | h1
      · obtain ⟨x, h2, h3⟩ := h.usedc a h1
        exact ⟨x, by rw [lablt a (lt_of_mem_lab h2)]; exact h2, h3⟩
      · simp only [used, List.mem_cons, List.not_mem_nil, or_false] at h1
        rcases h1 with rfl | rfl
        · exact ⟨x0, by rw [lablt _ (h.lt _ hx)]; exact hx0, hc0⟩
        · exact ⟨x0, by rw [lablt _ (h.lt _ hy)]; exact hy0, hc0⟩
    · intro t ht x hxt hxc
      rw [hvals]
      rcases (mem' t).1 ht with ⟨h1, -, -⟩ | h1
      · rw [if_neg (hne t h1)]
        rw [lablt t (h.lt t h1)] at hxt
        exact h.leaf t h1 x hxt hxc
      · subst h1
        rw [if_pos rfl, hinz]
        rw [labz, hz] at hxt
        rcases hxt with h1 | h1 | h1
        · exact Or.inl (h.leaf tx hx x h1.1 hxc)
        · exact Or.inr (h.leaf ty hy x h1.1 hxc)
        · exact Or.inl (h.leaf tx hx x h1.1 hxc)
    · intro t ht x hxc hin
      rw [hvals] at hin
      rcases (mem' t).1 ht with ⟨h1, h1x, h1y⟩ | h1
      · rw [if_neg (hne t h1)] at hin
        rcases h.closed t h1 x hxc hin with h2 | h2
        · left; rw [lablt t (h.lt t h1)]; exact h2
        · right
          intro t' ht' htt hin'
          rw [hvals] at hin'
          rcases (mem' t').1 ht' with ⟨h3, -, -⟩ | h3
          · rw [if_neg (hne t' h3)] at hin'
            exact h2 t' h3 htt hin'
          · subst h3
            rw [if_pos rfl, hinz] at hin'
            rcases hin' with h4 | h4
            · exact h2 tx hx (Ne.symm h1x) h4
            · exact h2 ty hy (Ne.symm h1y) h4
      · subst h1
        rw [if_pos rfl, hinz] at hin
        rw [labz]
        by_contra hcon
        rw [not_or] at hcon
        obtain ⟨hnz, hno⟩ := hcon
        push Not at hno
        obtain ⟨t', ht', htt, hin'⟩ := hno
        rw [hvals] at hin'
        rcases (mem' t').1 ht' with ⟨h3, h3x, h3y⟩ | h3
        · rw [if_neg (hne t' h3)] at hin'
          have ht'l : x ∈ lab st.ts t' := by
            rcases h.closed t' h3 x hxc hin' with h4 | h4
            · exact h4
            · rcases hin with h5 | h5
              · exact absurd h5 (h4 tx hx (Ne.symm h3x))
              · exact absurd h5 (h4 ty hy (Ne.symm h3y))
          have hpos := hRpos t' h3 h3x h3y x ht'l
          rw [hz] at hnz
          rcases hin with h5 | h5
          · rcases h.closed tx hx x hxc h5 with h6 | h6
            · exact hnz (by by_cases h7 : x ∈ ys
                            · exact Or.inr (Or.inr ⟨h6, h7, hpos⟩)
                            · exact Or.inl ⟨h6, h7⟩)
            · exact h6 t' h3 h3x hin'
          · rcases h.closed ty hy x hxc h5 with h6 | h6
            · exact hnz (by by_cases h7 : x ∈ xs
                            · exact Or.inr (Or.inr ⟨h7, h6, hpos⟩)
                            · exact Or.inr (Or.inl ⟨h6, h7⟩))
            · exact h6 t' h3 h3y hin'
        · exact htt h3
    · intro p hp
      rw [prods_append] at hp
      rcases List.mem_append.1 hp with h1 | h1
      · exact h.share p h1
      · simp only [prods, List.mem_singleton] at h1
        exact ⟨_, _, h1, x0, h.leaf tx hx x0 hx0 hc0, h.leaf ty hy x0 hy0 hc0⟩
  · refine ⟨?_, ?_, ?_, lablt, ?_⟩
    · intro x hxc
      show (if x ∈ zs then st.i2t x ++ [st.ts.length] else st.i2t x) = _
      rw [if_neg fun hm => hxc (cz x hm)]
    · intro x hxc
      show lowerR st.hc (xs ∩ ys) x = _
      unfold lowerR
      rw [if_neg fun hm => hxc (cx x (Finset.mem_inter.1 hm).1)]
    · show st.ts.length ≤ (st.ts ++ [zs]).length
      simp
    · intro t x ht hxt
      by_cases hte : t = st.ts.length
      · subst hte; rw [labz] at hxt; exact cz x hxt
      · rw [lab_ge (by show (st.ts ++ [zs]).length ≤ t; simp; omega)] at hxt; simp at hxt

theorem countP_eq_filter_length (ts : List (Finset ℕ)) (L : List ℕ) (x : ℕ) :
    cnt ts L x = (L.filter fun t => x ∈ lab ts t).length := by
  unfold cnt; rw [List.countP_eq_length_filter]

/-- The loop over a component ends, whatever the random numbers. -/
theorem rcLoop_spec {g : PyRng σ} (hg : g.Ok) {ts0 : List (Finset ℕ)} {col : ℕ → ℕ} {c : ℕ} (N : ℕ) (s : σ) (st : RState)
    (avail : List ℕ) (con : Finset ℕ) (path : List (ℕ × ℕ × ℕ)) (L : List ℕ) (h : RInv ts0 col c st avail con path L)
    (hN : L.length + avail.length ≤ N) :
    ∃ s' st' con' path' L', (∀ fuel, N < fuel → rcLoop g fuel s st avail con path = some (.ok (s', st', path'))) ∧
      RInv ts0 col c st' [] con' path' L' ∧ Frame col c st st' := by
  induction N generalizing s st avail con path L with
  | zero =>
    have : avail = [] := List.length_eq_zero_iff.1 (by omega)
    subst this
    refine ⟨s, st, con, path, L, ?_, h, Frame.refl _ _ _⟩
    intro fuel hf
    obtain ⟨f, rfl⟩ := Nat.exists_eq_succ_of_ne_zero (by omega : fuel ≠ 0)
    simp [rcLoop]
  | succ N ih =>
    by_cases ha : avail = []
    · subst ha
      refine ⟨s, st, con, path, L, ?_, h, Frame.refl _ _ _⟩
      intro fuel hf
      obtain ⟨f, rfl⟩ := Nat.exists_eq_succ_of_ne_zero (by omega : fuel ≠ 0)
      simp [rcLoop]
    have hpos : 0 < avail.length := List.length_pos_iff.2 ha
    set r := g.randrange avail.length s with hr
    have hi : r.1 < avail.length := hg.range _ _ hpos
    obtain ⟨hp, hl, hlast⟩ := swapLast_spec hi
    set av := swapLast avail r.1 with hav
    set index := av.getD (av.length - 1) 0 with hindex
    have havne : av ≠ [] := fun e => by rw [e] at hl; simp at hl; omega
    have hlt : av.length - 1 < av.length := by omega
    have hmi : index ∈ av := by
      rw [hindex, List.getD_eq_getElem _ _ hlt]
      exact List.getElem_mem _
    have hci : col index = c := h.availc index (hp.mem_iff.1 hmi)
    have hdl : av = av.dropLast ++ [index] := by
      conv_lhs => rw [← List.dropLast_append_getLast havne]
      rw [List.getLast_eq_getElem, hindex, List.getD_eq_getElem _ _ hlt]
    have hAv : RInv ts0 col c st av con path L :=
      { h with
        availc := fun x hx => h.availc x (hp.mem_iff.1 hx)
        popped := fun x hxc hx => h.popped x hxc fun hm => hx (hp.mem_iff.2 hm) }
    have hcand : (st.i2t index).filter (· ∉ con) = (st.i2t index).filter (· ∈ L) := by
      refine List.filter_congr fun t ht => ?_
      rw [decide_eq_decide, h.dead index hci t ht, not_not]
    have hcl : ((st.i2t index).filter (· ∈ L)).length = cnt st.ts L index := by
      rw [countP_eq_filter_length]
      refine List.Perm.length_eq ((List.perm_ext_iff_of_nodup ((h.nd index hci).filter _) (h.nodup.filter _)).2 ?_)
      intro t
      simp only [List.mem_filter, decide_eq_true_eq, h.i2t index hci]
      tauto
    by_cases hskip : st.hc index = none ∨ (st.i2t index).length ≤ 1
    · have hnone : st.hc index = none := by
        rcases hskip with h1 | h1
        · exact h1
        · rw [h.hc index hci, if_neg]
          have := List.length_filter_le (fun t => decide (t ∈ L)) (st.i2t index)
          omega
      have h' : RInv ts0 col c st av.dropLast con path L :=
        { hAv with
          availc := fun x hx => hAv.availc x (List.mem_of_mem_dropLast hx)
          popped := fun x hxc hx => by
            by_cases hxi : x = index
            · rw [hxi]; exact hnone
            · refine hAv.popped x hxc fun hm => hx ?_
              rw [hdl, List.mem_append, List.mem_singleton] at hm
              exact hm.resolve_right hxi }
      obtain ⟨s', st', con', path', L', i1, i2, i3⟩ := ih r.2 st av.dropLast con path L h' (by simp; omega)
      refine ⟨s', st', con', path', L', ?_, i2, i3⟩
      intro fuel hf
      obtain ⟨f, rfl⟩ := Nat.exists_eq_succ_of_ne_zero (by omega : fuel ≠ 0)
      have := i1 f (by omega)
      unfold rcLoop
      rw [if_neg ha]
      simp only [← hr, ← hav, ← hindex]
      rw [if_pos hskip]
      exact this
    · have h2 : 2 ≤ cnt st.ts L index := by
        by_contra h2
        exact hskip (Or.inl (by rw [h.hc index hci, if_neg h2]))
      set cand := (st.i2t index).filter (· ∉ con) with hcd
      have hlen : cand.length = cnt st.ts L index := by rw [hcand, hcl]
      set q := g.sample2 cand.length r.2 with hq
      obtain ⟨q1, q2, q3⟩ := hg.sample cand.length r.2 (by omega)
      rw [← hq] at q1 q2 q3
      have ncand : cand.Nodup := (h.nd index hci).filter _
      have hmc : ∀ t ∈ cand, t ∈ L ∧ index ∈ lab st.ts t := by
        intro t ht
        rw [hcand, List.mem_filter, decide_eq_true_eq, h.i2t index hci] at ht
        exact ⟨ht.2, ht.1⟩
      obtain ⟨m1, m2⟩ := hmc cand[q.1.1] (List.getElem_mem _)
      obtain ⟨m3, m4⟩ := hmc cand[q.1.2] (List.getElem_mem _)
      have hne : cand[q.1.1] ≠ cand[q.1.2] := fun e => q3 ((ncand.getElem_inj_iff).1 e)
      obtain ⟨k1, k2, k3⟩ := hAv.step m1 m3 hne hci m2 m4
      have hlL := length_stepL (z := st.ts.length) m1 m3 hne
      obtain ⟨s', st', con', path', L', i1, i2, i3⟩ := ih q.2 _ av _ _ _ k2 (by omega)
      refine ⟨s', st', con', path', L', ?_, i2, k3.trans i3⟩
      intro fuel hf
      obtain ⟨f, rfl⟩ := Nat.exists_eq_succ_of_ne_zero (by omega : fuel ≠ 0)
      have := i1 f (by omega)
      unfold rcLoop
      rw [if_neg ha]
      simp only [← hr, ← hav, ← hindex]
      rw [if_neg hskip, ← hcd, if_neg (by omega)]
      simp only [← hq]
      rw [List.getElem?_eq_getElem q1, List.getElem?_eq_getElem q2]
      simp only
      have e1 : st.ts[cand[q.1.1]]? = some (lab st.ts cand[q.1.1]) := by
        rw [List.getElem?_eq_getElem (h.lt _ m1), lab, List.getD_eq_getElem _ _ (h.lt _ m1)]
      have e2 : st.ts[cand[q.1.2]]? = some (lab st.ts cand[q.1.2]) := by
        rw [List.getElem?_eq_getElem (h.lt _ m3), lab, List.getD_eq_getElem _ _ (h.lt _ m3)]
      rw [e1, e2]
      simp only
      rw [if_neg (by intro e; have : index ∈ (∅ : Finset ℕ) := e ▸ Finset.mem_inter.2 ⟨m2, m4⟩; simp at this),
        if_neg (by rintro ⟨x, hx, hn⟩; exact k1 x hx hn)]
      exact this

end TNCO
