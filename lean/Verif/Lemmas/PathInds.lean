import Verif.Lemmas.Forest
import Mathlib.Data.Finset.Card

/-! The hyper-count loop computes the exact index sets. -/

namespace TNCO
open PTree
variable {ι : Type} [DecidableEq ι]

theorem sharedLoop_ok (l : List ι) (hc : ι → ℤ) (iz : Finset ι) (hn : l.Nodup)
    (hpos : ∀ x ∈ l, 0 < hc x) :
    ∃ hc' iz', sharedLoop l hc iz = .ok (hc', iz') ∧
      (∀ x, hc' x = if x ∈ l then hc x - 1 else hc x) ∧
      (∀ x, x ∈ iz' ↔ x ∈ iz ∨ (x ∈ l ∧ 0 < hc x - 1)) := by
  induction l generalizing hc iz with
  | nil => exact ⟨hc, iz, rfl, by simp, by simp⟩
  | cons s r ih =>
    have hs : s ∉ r := (List.nodup_cons.1 hn).1
    have hne : ∀ x ∈ r, x ≠ s := fun x hx e => hs (e ▸ hx)
    simp only [sharedLoop, if_pos (hpos s (by simp)), Function.update_self]
    obtain ⟨hc', iz', h1, h2, h3⟩ := ih (Function.update hc s (hc s - 1))
      (if 0 < hc s - 1 then insert s iz else iz) hn.of_cons (fun x hx => by
        rw [Function.update_of_ne (hne x hx)]; exact hpos x (by simp [hx]))
    refine ⟨hc', iz', h1, fun x => ?_, fun x => ?_⟩
    · rw [h2]
      by_cases hx : x = s
      · subst hx; simp [hs]
      · simp [hx, Function.update_of_ne hx]
    · rw [h3]
      by_cases hx : x = s
      · subst hx
        simp only [hs, false_and, or_false, List.mem_cons, true_or, true_and]
        by_cases h0 : 0 < hc x - 1
        · rw [if_pos h0]; simp only [h0, Finset.mem_insert, true_or, or_true]
        · rw [if_neg h0]; simp only [h0, or_false]
      · have : x ∈ (if 0 < hc s - 1 then insert s iz else iz) ↔ x ∈ iz := by
          split <;> simp [hx]
        rw [this, Function.update_of_ne hx]; simp [hx]

/-- The tree has a leaf carrying `x`. -/
def hasB (Lf : ℕ → Finset ι) (x : ι) (t : PTree) : Bool := t.leaves.any fun p => decide (x ∈ Lf p)

theorem hasB_iff {Lf : ℕ → Finset ι} {x : ι} {t : PTree} :
    hasB Lf x t = true ↔ ∃ p ∈ t.leaves, x ∈ Lf p := by simp [hasB]

/-- The tensor at the root of `s` has exactly the indices it must have. -/
def GoodI (Lf : ℕ → Finset ι) (SL : List ℕ) (out : Finset ι) (I : ℕ → Option (List ι)) (s : PTree) : Prop :=
  ∃ l, I s.root = some l ∧ ∀ x, x ∈ l ↔ (∃ p ∈ s.leaves, x ∈ Lf p) ∧
    (x ∈ out ∨ ∃ p ∈ SL, p ∉ s.leaves ∧ x ∈ Lf p)

/-- Invariant of the loop: `out` are the requested outputs, `out'` those together with the
indices of a single tensor. -/
structure IInv (Lf : ℕ → Finset ι) (SL : List ℕ) (out out' : Finset ι) (F : List PTree)
    (hc : ι → ℤ) (I : ℕ → Option (List ι)) : Prop where
  good : ∀ t ∈ F, ∀ s, Sub s t → GoodI Lf SL out' I s
  cnt : ∀ x, (∃ p ∈ SL, x ∈ Lf p) →
    hc x = (F.countP (hasB Lf x) : ℤ) - 1 + if x ∈ out then 1 else 0

theorem sub_mem_postorder {s t : PTree} (h : Sub s t) : ∀ p ∈ s.postorder, p ∈ t.postorder := by
  induction h with
  | refl => exact fun _ h => h
  | left _ ih => intro p hp; simp [postorder, ih p hp]
  | right _ ih => intro p hp; simp [postorder, ih p hp]

/-- Operands of every contraction share an index. -/
def SharedAll (I : ℕ → Option (List ι)) (c : List (ℕ × ℕ × ℕ)) : Prop :=
  ∀ t ∈ c, ∃ lx ly x, I t.1 = some lx ∧ I t.2.1 = some ly ∧ x ∈ lx ∧ x ∈ ly

/-- Contractions keep all subtrees. -/
theorem Run.sub {F c F'} (h : Run F c F') {s t : PTree} (hs : Sub s t) (ht : t ∈ F) : ∃ t' ∈ F', Sub s t' := by
  induction h generalizing t with
  | nil h => exact ⟨t, h.mem_iff.1 ht, hs⟩
  | @cons F a b rest z c F' h _ ih =>
    rcases List.mem_cons.1 (h.mem_iff.1 ht) with rfl | ht
    · exact ih (.left hs) (List.mem_cons_self ..)
    · rcases List.mem_cons.1 ht with rfl | ht
      · exact ih (.right hs) (List.mem_cons_self ..)
      · exact ih hs (List.mem_cons_of_mem _ ht)

/-- Some contraction in the forest has operands that share no index. -/
def Unshared (Lf : ℕ → Finset ι) (F : List PTree) : Prop :=
  ∃ t ∈ F, ∃ z a b, Sub (.node z a b) t ∧ ∀ x, ¬ (hasB Lf x a = true ∧ hasB Lf x b = true)

theorem indsLoop_spec {enum : Finset ι → List ι} (he : EnumOk enum) {Lf : ℕ → Finset ι}
    {SL : List ℕ} {out out' : Finset ι} (check : Bool)
    (hout' : ∀ x, x ∈ out' ↔ x ∈ out ∨
      ∃ p ∈ SL, x ∈ Lf p ∧ ∀ q ∈ SL, x ∈ Lf q → q = p)
    {F c F'} (hr : Run F c F') (hn : (Run.labels F').Nodup)
    (hSL : (F'.flatMap leaves).Perm SL) (hc : ι → ℤ) (I : ℕ → Option (List ι))
    (hI : IInv Lf SL out out' F hc I) :
    (indsLoop enum check c hc I = .error .valueError ∧ check = true ∧ Unshared Lf F') ∨
    ∃ I' hc', indsLoop enum check c hc I = .ok I' ∧ IInv Lf SL out out' F' hc' I' ∧
      (∀ p, p ∉ c.map (fun t => t.2.2) → I' p = I p) ∧
      (check = true → SharedAll I' c) := by
  induction hr generalizing hc I with
  | nil h =>
    refine Or.inr ⟨I, hc, rfl, ⟨fun t ht => hI.good t (h.mem_iff.2 ht), fun x hx => ?_⟩, by simp,
      fun _ t ht => by simp at ht⟩
    rw [hI.cnt x hx, h.countP_eq]
  | @cons F a b rest z c F' h hr ih =>
    have hn1 := hr.nodup_left hn
    have hcnt : ∀ x, a.postorder.count x + b.postorder.count x + (if z = x then 1 else 0) +
        (Run.labels rest).count x ≤ 1 := by
      intro x
      have := List.nodup_iff_count_le_one.1 hn1 x
      simp only [Run.labels, List.flatMap_cons, postorder, List.count_append,
        List.count_singleton, beq_iff_eq] at *
      exact this
    have pos : ∀ {l : List ℕ} {x}, x ∈ l → 1 ≤ l.count x := fun hx => List.count_pos_iff.2 hx
    have za : z ∉ a.postorder := fun hx => by have h1 := hcnt z; have h2 := pos hx; rw [if_pos rfl] at h1; omega
    have zb : z ∉ b.postorder := fun hx => by have h1 := hcnt z; have h2 := pos hx; rw [if_pos rfl] at h1; omega
    have zr : z ∉ Run.labels rest := fun hx => by have h1 := hcnt z; have h2 := pos hx; rw [if_pos rfl] at h1; omega
    have ab : ∀ x ∈ a.postorder, x ∉ b.postorder := fun x hx hy => by
      have := hcnt x; have := pos hx; have := pos hy; omega
    have ar : ∀ x ∈ a.postorder, x ∉ Run.labels rest := fun x hx hy => by
      have := hcnt x; have := pos hx; have := pos hy; omega
    have br : ∀ x ∈ b.postorder, x ∉ Run.labels rest := fun x hx hy => by
      have := hcnt x; have := pos hx; have := pos hy; omega
    -- the leaves
    have hSL1 : ∀ p, p ∈ SL ↔ p ∈ a.leaves ∨ p ∈ b.leaves ∨ p ∈ rest.flatMap leaves := by
      intro p
      rw [← hSL.mem_iff, hr.leaves_perm.mem_iff]
      simp [leaves, or_assoc]
    have lab : ∀ p ∈ a.leaves, p ∉ b.leaves := fun p hp hq =>
      ab p (a.leaves_subset p hp) (b.leaves_subset p hq)
    have rl : ∀ p, p ∈ rest.flatMap leaves → p ∈ Run.labels rest := by
      intro p hp
      obtain ⟨t, ht, hp⟩ := List.mem_flatMap.1 hp
      exact List.mem_flatMap.2 ⟨t, ht, t.leaves_subset p hp⟩
    have lar : ∀ p ∈ a.leaves, p ∉ rest.flatMap leaves := fun p hp hq =>
      ar p (a.leaves_subset p hp) (rl p hq)
    have lbr : ∀ p ∈ b.leaves, p ∉ rest.flatMap leaves := fun p hp hq =>
      br p (b.leaves_subset p hp) (rl p hq)
    obtain ⟨lx, hlx, hIa⟩ := hI.good a (h.mem_iff.2 (by simp)) a .refl
    obtain ⟨ly, hly, hIb⟩ := hI.good b (h.mem_iff.2 (by simp)) b .refl
    have hshared : ∀ x, (x ∈ lx ∧ x ∈ ly) ↔ hasB Lf x a = true ∧ hasB Lf x b = true := by
      intro x
      rw [hIa, hIb, hasB_iff, hasB_iff]
      constructor
      · rintro ⟨⟨h1, -⟩, h2, -⟩; exact ⟨h1, h2⟩
      · rintro ⟨⟨p, hp, hxp⟩, q, hq, hxq⟩
        exact ⟨⟨⟨p, hp, hxp⟩, Or.inr ⟨q, (hSL1 q).2 (by simp [hq]), fun h' => lab q h' hq, hxq⟩⟩,
          ⟨q, hq, hxq⟩, Or.inr ⟨p, (hSL1 p).2 (by simp [hp]), lab p hp, hxp⟩⟩
    have hcF : ∀ x, F.countP (hasB Lf x) = (if hasB Lf x a = true then 1 else 0) +
        (if hasB Lf x b = true then 1 else 0) + rest.countP (hasB Lf x) := by
      intro x
      rw [h.countP_eq, List.countP_cons, List.countP_cons]; omega
    have hzB : ∀ x, hasB Lf x (.node z a b) = (hasB Lf x a || hasB Lf x b) := by
      intro x; simp [hasB, leaves]
    have hcF1 : ∀ x, (PTree.node z a b :: rest).countP (hasB Lf x) =
        (if hasB Lf x a = true ∨ hasB Lf x b = true then 1 else 0) + rest.countP (hasB Lf x) := by
      intro x
      rw [List.countP_cons, hzB]; simp only [Bool.or_eq_true]; omega
    have used : ∀ {x}, hasB Lf x a = true → ∃ p ∈ SL, x ∈ Lf p := by
      intro x hx
      obtain ⟨p, hp, hxp⟩ := hasB_iff.1 hx
      exact ⟨p, (hSL1 p).2 (by simp [hp]), hxp⟩
    have hshL : ∀ x, x ∈ enum (lx.toFinset ∩ ly.toFinset) ↔ hasB Lf x a = true ∧ hasB Lf x b = true := by
      intro x
      rw [(he _).2, Finset.mem_inter, List.mem_toFinset, List.mem_toFinset, hshared]
    have hpos : ∀ x ∈ enum (lx.toFinset ∩ ly.toFinset), 0 < hc x := by
      intro x hx
      have hx' := (hshL x).1 hx
      rw [hI.cnt x (used hx'.1), hcF, if_pos hx'.1, if_pos hx'.2]
      split <;> omega
    obtain ⟨hc1, iz, e1, e2, e3⟩ := sharedLoop_ok (enum (lx.toFinset ∩ ly.toFinset)) hc
      ((lx.toFinset \ ly.toFinset) ∪ (ly.toFinset \ lx.toFinset)) (he _).1 hpos
    simp only [indsLoop, hlx, hly]
    by_cases hck : (check && decide (lx.toFinset ∩ ly.toFinset = ∅)) = true
    · rw [if_pos hck]
      obtain ⟨hck1, hck2⟩ := Bool.and_eq_true_iff.1 hck
      obtain ⟨t', ht', hs'⟩ := hr.sub .refl (List.mem_cons_self ..)
      refine Or.inl ⟨rfl, hck1, t', ht', z, a, b, hs', fun x hx => ?_⟩
      have hx' := (hshL x).2 hx
      rw [(he _).2, of_decide_eq_true hck2] at hx'
      simp at hx'
    rw [if_neg hck, e1]
    -- the new tensor
    have hrestx : ∀ x, (∃ p ∈ rest.flatMap leaves, x ∈ Lf p) ↔ 0 < rest.countP (hasB Lf x) := by
      intro x
      rw [List.countP_pos_iff]
      constructor
      · rintro ⟨p, hp, hx⟩
        obtain ⟨t, ht, hp⟩ := List.mem_flatMap.1 hp
        exact ⟨t, ht, hasB_iff.2 ⟨p, hp, hx⟩⟩
      · rintro ⟨t, ht, hx⟩
        obtain ⟨p, hp, hx⟩ := hasB_iff.1 hx
        exact ⟨p, List.mem_flatMap.2 ⟨t, ht, hp⟩, hx⟩
    have houtA : ∀ x, (∃ p ∈ SL, p ∉ a.leaves ∧ x ∈ Lf p) ↔
        hasB Lf x b = true ∨ 0 < rest.countP (hasB Lf x) := by
      intro x
      rw [hasB_iff, ← hrestx]
      constructor
      · rintro ⟨p, hp, hpa, hx⟩
        rcases (hSL1 p).1 hp with h' | h' | h'
        · exact absurd h' hpa
        · exact Or.inl ⟨p, h', hx⟩
        · exact Or.inr ⟨p, h', hx⟩
      · rintro (⟨p, hp, hx⟩ | ⟨p, hp, hx⟩)
        · exact ⟨p, (hSL1 p).2 (by simp [hp]), fun h' => lab p h' hp, hx⟩
        · exact ⟨p, (hSL1 p).2 (Or.inr (Or.inr hp)), fun h' => lar p h' hp, hx⟩
    have houtB : ∀ x, (∃ p ∈ SL, p ∉ b.leaves ∧ x ∈ Lf p) ↔
        hasB Lf x a = true ∨ 0 < rest.countP (hasB Lf x) := by
      intro x
      rw [hasB_iff, ← hrestx]
      constructor
      · rintro ⟨p, hp, hpa, hx⟩
        rcases (hSL1 p).1 hp with h' | h' | h'
        · exact Or.inl ⟨p, h', hx⟩
        · exact absurd h' hpa
        · exact Or.inr ⟨p, h', hx⟩
      · rintro (⟨p, hp, hx⟩ | ⟨p, hp, hx⟩)
        · exact ⟨p, (hSL1 p).2 (by simp [hp]), lab p hp, hx⟩
        · exact ⟨p, (hSL1 p).2 (Or.inr (Or.inr hp)), fun h' => lbr p h' hp, hx⟩
    have houtZ : ∀ x, (∃ p ∈ SL, p ∉ (PTree.node z a b).leaves ∧ x ∈ Lf p) ↔
        0 < rest.countP (hasB Lf x) := by
      intro x
      rw [← hrestx]
      simp only [leaves, List.mem_append, not_or]
      constructor
      · rintro ⟨p, hp, ⟨hpa, hpb⟩, hx⟩
        rcases (hSL1 p).1 hp with h' | h' | h'
        · exact absurd h' hpa
        · exact absurd h' hpb
        · exact ⟨p, h', hx⟩
      · rintro ⟨p, hp, hx⟩
        exact ⟨p, (hSL1 p).2 (Or.inr (Or.inr hp)), ⟨fun h' => lar p h' hp, fun h' => lbr p h' hp⟩, hx⟩
    -- dangling indices are not shared
    have hno : ∀ x, hasB Lf x a = true → hasB Lf x b = true → (x ∈ out' ↔ x ∈ out) := by
      intro x ha hb
      rw [hout' x]
      refine or_iff_left ?_
      rintro ⟨p, hp, hxp, huniq⟩
      obtain ⟨q, hq, hxq⟩ := hasB_iff.1 ha
      obtain ⟨r, hr', hxr⟩ := hasB_iff.1 hb
      have h1 := huniq q ((hSL1 q).2 (by simp [hq])) hxq
      have h2 := huniq r ((hSL1 r).2 (by simp [hr'])) hxr
      exact lab q hq (h1.trans h2.symm ▸ hr')
    have hgz : ∀ x, x ∈ iz ↔ (∃ p ∈ (PTree.node z a b).leaves, x ∈ Lf p) ∧
        (x ∈ out' ∨ ∃ p ∈ SL, p ∉ (PTree.node z a b).leaves ∧ x ∈ Lf p) := by
      intro x
      have hA := hIa x
      have hB := hIb x
      rw [houtA, ← hasB_iff] at hA
      rw [houtB, ← hasB_iff] at hB
      rw [e3, houtZ, ← hasB_iff, hzB, hshL, Finset.mem_union, Finset.mem_sdiff, Finset.mem_sdiff,
        List.mem_toFinset, List.mem_toFinset, hA, hB]
      by_cases ha : hasB Lf x a = true <;> by_cases hb : hasB Lf x b = true
      · rw [hI.cnt x (used ha), hcF, if_pos ha, if_pos hb, hno x ha hb]
        generalize rest.countP (hasB Lf x) = k
        by_cases ho : x ∈ out
        · simp only [ha, hb, ho, if_true, true_and, true_or, or_true, not_true_eq_false, and_false,
            or_self, false_or, Bool.or_self, iff_true]
          omega
        · simp only [ha, hb, ho, if_false, true_and, true_or, or_true, not_true_eq_false, and_false,
            or_self, false_or, Bool.or_self]
          omega
      · simp [ha, hb]
      · simp [ha, hb]
      · simp [ha, hb]
    have hIinv : IInv Lf SL out out' (.node z a b :: rest) hc1 (Function.update I z (some (enum iz))) := by
      refine ⟨?_, ?_⟩
      · have keep : ∀ t ∈ F, z ∉ t.postorder → ∀ s, Sub s t →
            GoodI Lf SL out' (Function.update I z (some (enum iz))) s := by
          intro t ht hz s hs
          obtain ⟨l, h1, h2⟩ := hI.good t ht s hs
          refine ⟨l, ?_, h2⟩
          rw [Function.update_of_ne, h1]
          exact fun e => hz (e ▸ sub_mem_postorder hs _ s.root_mem)
        intro t ht s hs
        rcases List.mem_cons.1 ht with rfl | ht
        · cases hs with
          | refl =>
            refine ⟨enum iz, by simp [root], fun x => ?_⟩
            rw [(he _).2]; exact hgz x
          | left hs => exact keep a (h.mem_iff.2 (by simp)) za s hs
          | right hs => exact keep b (h.mem_iff.2 (by simp)) zb s hs
        · exact keep t (h.mem_iff.2 (by simp [ht]))
            (fun hz => zr (List.mem_flatMap.2 ⟨t, ht, hz⟩)) s hs
      · intro x hx
        rw [e2, hI.cnt x hx, hcF, hcF1]
        by_cases ha : hasB Lf x a = true <;> by_cases hb : hasB Lf x b = true
        · rw [if_pos ((hshL x).2 ⟨ha, hb⟩)]; simp [ha, hb]; ring
        · rw [if_neg fun h' => hb ((hshL x).1 h').2]; simp [ha, hb]
        · rw [if_neg fun h' => ha ((hshL x).1 h').1]; simp [ha, hb]
        · rw [if_neg fun h' => ha ((hshL x).1 h').1]; simp [ha, hb]
    rcases ih hn hSL hc1 _ hIinv with hErr | ⟨I', hc', h1, h2, h3, h4⟩
    · exact Or.inl hErr
    · refine Or.inr ⟨I', hc', h1, h2, ?_, ?_⟩
      · intro p hp
        simp only [List.map_cons, List.mem_cons, not_or] at hp
        rw [h3 p hp.2, Function.update_of_ne hp.1]
      · intro hch t ht
        have hnz : ∀ p, p ∈ Run.labels (.node z a b :: rest) → p ∉ c.map (fun t => t.2.2) := by
          intro p hp hp'
          have := List.nodup_iff_count_le_one.1 hn p
          rw [hr.labels_count] at this
          have := pos hp; have := pos hp'
          omega
        rcases List.mem_cons.1 ht with rfl | ht
        · have hra : I' a.root = some lx := by
            rw [h3 _ (hnz _ (by simp [Run.labels, postorder, a.root_mem])), Function.update_of_ne, hlx]
            exact fun e => za (e ▸ a.root_mem)
          have hrb : I' b.root = some ly := by
            rw [h3 _ (hnz _ (by simp [Run.labels, postorder, b.root_mem])), Function.update_of_ne, hly]
            exact fun e => zb (e ▸ b.root_mem)
          rw [hch, Bool.true_and, decide_eq_true_eq] at hck
          obtain ⟨x, hx⟩ := Finset.nonempty_iff_ne_empty.2 hck
          simp only [Finset.mem_inter, List.mem_toFinset] at hx
          exact ⟨lx, ly, x, hra, hrb, hx.1, hx.2⟩
        · exact h4 hch t ht

end TNCO
