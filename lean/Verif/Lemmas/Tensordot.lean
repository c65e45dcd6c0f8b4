import Verif.Model.Contract
import Verif.Lemmas.NDArray
import Verif.Lemmas.Unique
import Verif.Lemmas.PathBuild
import Mathlib.Data.List.Perm.Lattice

/-! `tensordot`. -/

namespace TNCO
variable {ι R : Type} [DecidableEq ι]

theorem dotPlan_ok {xs ys hyper : List ι} (hx : xs.Nodup) (hy : ys.Nodup) (hh : ∀ x ∈ hyper, x ∈ xs ∧ x ∈ ys) :
    dotPlan xs ys hyper = .ok
      { hyper := uniqueEverseen hyper
        xsOnly := xs.filter (· ∉ ys)
        ysOnly := ys.filter (· ∉ xs)
        shared := xs.filter fun x => x ∈ ys ∧ x ∉ hyper
        newXs := uniqueEverseen hyper ++ xs.filter (· ∉ ys) ++ xs.filter fun x => x ∈ ys ∧ x ∉ hyper
        newYs := (uniqueEverseen hyper ++ xs.filter fun x => x ∈ ys ∧ x ∉ hyper) ++ ys.filter (· ∉ xs)
        zs := uniqueEverseen hyper ++ xs.filter (· ∉ ys) ++ ys.filter (· ∉ xs) } := by
  have eX : OFS.make xs = ⟨xs⟩ := by unfold OFS.make; rw [uniqueEverseen_of_nodup hx]
  have eY : OFS.make ys = ⟨ys⟩ := by unfold OFS.make; rw [uniqueEverseen_of_nodup hy]
  have make_nodup : ∀ {l : List ι}, l.Nodup → OFS.make l = ⟨l⟩ := by
    intro l h; unfold OFS.make; rw [uniqueEverseen_of_nodup h]
  have nH := uniqueEverseen_nodup hyper
  have mH : ∀ x, x ∈ uniqueEverseen hyper ↔ x ∈ hyper := fun x => mem_uniqueEverseen
  have eI : (OFS.mk xs).intersection ys = ⟨xs.filter (· ∈ ys)⟩ := by
    unfold OFS.intersection
    rw [eY]
    simp only [OFS.set, List.mem_toFinset]
    exact make_nodup (hx.filter _)
  have eS : (OFS.mk (xs.filter (· ∈ ys))).difference (uniqueEverseen hyper) =
      ⟨xs.filter fun x => x ∈ ys ∧ x ∉ hyper⟩ := by
    unfold OFS.difference
    rw [make_nodup nH]
    simp only [OFS.set, List.mem_toFinset]
    rw [make_nodup ((hx.filter _).filter _), List.filter_filter]
    congr 1
    refine List.filter_congr fun x _ => ?_
    simp [mH, Bool.and_comm]
  have eXn : (OFS.mk xs).difference (xs.filter (· ∈ ys)) = ⟨xs.filter (· ∉ ys)⟩ := by
    unfold OFS.difference
    rw [make_nodup (hx.filter _)]
    simp only [OFS.set, List.mem_toFinset]
    rw [make_nodup (hx.filter _)]
    congr 1
    refine List.filter_congr fun x hx' => ?_
    simp [hx']
  have eYn : (OFS.mk ys).difference (xs.filter (· ∈ ys)) = ⟨ys.filter (· ∉ xs)⟩ := by
    unfold OFS.difference
    rw [make_nodup (hx.filter _)]
    simp only [OFS.set, List.mem_toFinset]
    rw [make_nodup (hy.filter _)]
    congr 1
    refine List.filter_congr fun y hy' => ?_
    simp [hy']
  have eU : ∀ {a b : List ι}, (a ++ b).Nodup → b.Nodup → (OFS.mk a).union b = ⟨a ++ b⟩ := by
    intro a b h hb
    unfold OFS.union
    rw [make_nodup hb]
    exact make_nodup h
  have nXn : (xs.filter (· ∉ ys)).Nodup := hx.filter _
  have nYn : (ys.filter (· ∉ xs)).Nodup := hy.filter _
  have nS : (xs.filter fun x => x ∈ ys ∧ x ∉ hyper).Nodup := hx.filter _
  have n1 : (uniqueEverseen hyper ++ xs.filter (· ∉ ys)).Nodup := by
    refine List.Nodup.append nH nXn fun x h1 h2 => ?_
    have := (List.mem_filter.1 h2).2
    simp [(hh x ((mH x).1 h1)).2] at this
  have n2 : (uniqueEverseen hyper ++ xs.filter fun x => x ∈ ys ∧ x ∉ hyper).Nodup := by
    refine List.Nodup.append nH nS fun x h1 h2 => ?_
    have := (List.mem_filter.1 h2).2
    simp [(mH x).1 h1] at this
  have n3 : ((uniqueEverseen hyper ++ xs.filter (· ∉ ys)) ++ xs.filter fun x => x ∈ ys ∧ x ∉ hyper).Nodup := by
    refine List.Nodup.append n1 nS fun x h1 h2 => ?_
    have h3 := (List.mem_filter.1 h2).2
    rcases List.mem_append.1 h1 with h | h
    · simp [(mH x).1 h] at h3
    · have := (List.mem_filter.1 h).2
      simp at this h3; exact this h3.1
  have n4 : ((uniqueEverseen hyper ++ xs.filter fun x => x ∈ ys ∧ x ∉ hyper) ++ ys.filter (· ∉ xs)).Nodup := by
    refine List.Nodup.append n2 nYn fun x h1 h2 => ?_
    have h3 := (List.mem_filter.1 h2).2
    simp only [decide_eq_true_eq] at h3
    rcases List.mem_append.1 h1 with h | h
    · exact h3 (hh x ((mH x).1 h)).1
    · exact h3 (List.mem_filter.1 h).1
  have n5 : ((uniqueEverseen hyper ++ xs.filter (· ∉ ys)) ++ ys.filter (· ∉ xs)).Nodup := by
    refine List.Nodup.append n1 nYn fun x h1 h2 => ?_
    have h3 := (List.mem_filter.1 h2).2
    simp only [decide_eq_true_eq] at h3
    rcases List.mem_append.1 h1 with h | h
    · exact h3 (hh x ((mH x).1 h)).1
    · exact h3 (List.mem_filter.1 h).1
  have eH : OFS.make hyper = ⟨uniqueEverseen hyper⟩ := rfl
  have hsup : (OFS.mk (xs.filter (· ∈ ys))).issuperset (uniqueEverseen hyper) = true := by
    unfold OFS.issuperset OFS.set
    refine decide_eq_true fun x hx' => ?_
    rw [List.mem_toFinset] at hx' ⊢
    have := hh x ((mH x).1 hx')
    simp [this]
  unfold dotPlan
  simp only [eX, eY, eH, OFS.iter, eI, hsup, eS, eXn, eYn, eU n1 nXn, eU n2 nS, eU n3 nS, eU n4 nYn, eU n5 nYn]
  rfl

theorem dotPlan_error {xs ys hyper : List ι} (hh : ∃ x ∈ hyper, ¬ (x ∈ xs ∧ x ∈ ys)) :
    dotPlan xs ys hyper = .error .valueError := by
  obtain ⟨x, hx, hn⟩ := hh
  have : ((OFS.make xs).intersection (OFS.make ys).iter).issuperset (OFS.make hyper).iter = false := by
    unfold OFS.issuperset
    refine decide_eq_false fun hs => hn ?_
    have h1 : x ∈ (OFS.make hyper).iter.toFinset := List.mem_toFinset.2 (mem_uniqueEverseen.2 hx)
    have h2 := hs h1
    unfold OFS.set OFS.intersection OFS.make OFS.set OFS.iter at h2
    rw [List.mem_toFinset, mem_uniqueEverseen] at h2
    simp only [List.mem_filter, mem_uniqueEverseen, List.mem_toFinset, decide_eq_true_eq] at h2
    exact h2
  unfold dotPlan
  simp [this]

theorem dictLast_eq {l : List (ι × ℕ)} {d : ι → ℕ} {x : ι} (h : ∀ p ∈ l, p.2 = d p.1) (hx : x ∈ l.map Prod.fst) :
    dictLast l x = some (d x) := by
  unfold dictLast
  cases hf : l.reverse.find? (fun p => p.1 == x) with
  | none =>
    rw [List.find?_eq_none] at hf
    obtain ⟨p, hp, rfl⟩ := List.mem_map.1 hx
    exact absurd (hf p (List.mem_reverse.2 hp)) (by simp)
  | some p =>
    have h1 := List.mem_of_find?_eq_some hf
    have h2 := List.find?_some hf
    simp only [beq_iff_eq] at h2
    rw [Option.map_some, h p (List.mem_reverse.1 h1), h2]

theorem mapM_of_forall' {α β : Type} {f : α → Option β} {g : α → β} {l : List α} (h : ∀ x ∈ l, f x = some (g x)) :
    l.mapM f = some (l.map g) := by
  rw [mapM_some_iff]
  refine ⟨by simp, fun i hi => ?_⟩
  rw [h _ (List.getElem_mem _)]
  simp [hi]

theorem dimList_ok {dims : ι → Option ℕ} {d : ι → ℕ} {l : List ι} (h : ∀ x ∈ l, dims x = some (d x)) :
    dimList dims l = .ok (l.map d) := by
  unfold dimList; rw [mapM_of_forall' h]

/-- A tensor as a matrix. -/
theorem toMatrix_spec {a : NDArray R} {xs g1 g2 g3 : List ι} {d : ι → ℕ} {dims : ι → Option ℕ}
    (hs : a.shape = xs.map d) (hn : xs.Nodup) (hp : (g1 ++ g2 ++ g3).Perm xs) (hd : ∀ x ∈ xs, dims x = some (d x)) :
    ∃ m, toMatrix a xs (g1 ++ g2 ++ g3) dims g1 g2 g3 = .ok m ∧
      m.shape = [(g1.map d).prod, (g2.map d).prod, (g3.map d).prod] ∧
      ∀ f : ι → ℕ, (∀ x ∈ xs, f x < d x) → m.get [ravel (g1.map d) (g1.map f), ravel (g2.map d) (g2.map f),
        ravel (g3.map d) (g3.map f)] = a.get (xs.map f) := by
  obtain ⟨b, h1, h2, h3⟩ := transpose_named hs hn hp
  have hm : ∀ x, x ∈ xs ↔ x ∈ g1 ∨ x ∈ g2 ∨ x ∈ g3 := by
    intro x; rw [← hp.mem_iff]; simp
  have e1 := dimList_ok (l := g1) fun x hx => hd x ((hm x).2 (Or.inl hx))
  have e2 := dimList_ok (l := g2) fun x hx => hd x ((hm x).2 (Or.inr (Or.inl hx)))
  have e3 := dimList_ok (l := g3) fun x hx => hd x ((hm x).2 (Or.inr (Or.inr hx)))
  have hprod : b.shape.prod = [(g1.map d).prod, (g2.map d).prod, (g3.map d).prod].prod := by
    rw [h2]; simp [List.map_append, List.prod_append, Nat.mul_assoc]
  refine ⟨⟨[(g1.map d).prod, (g2.map d).prod, (g3.map d).prod], b.data⟩, ?_, rfl, ?_⟩
  · unfold toMatrix
    rw [h1]
    simp only [e1, e2, e3]
    unfold NDArray.reshape
    rw [if_neg (by rw [hprod]; simp)]
  · intro f hf
    rw [← h3 f hf]
    unfold NDArray.get
    simp only
    rw [h2]
    congr 1
    rw [List.map_append, List.map_append, List.map_append, List.map_append, ravel_append _ _ _ _ (by simp),
      ravel_append _ _ _ _ (by simp)]
    simp only [ravel, List.prod_cons, List.prod_nil]
    ring

theorem perm_of_mem {l m : List ι} (hl : l.Nodup) (hm : m.Nodup) (h : ∀ x, x ∈ l ↔ x ∈ m) : l.Perm m :=
  (List.perm_ext_iff_of_nodup hl hm).2 h

/-- `tensordot` on tensors with consistent dimensions. -/
theorem tensordot_spec [CommSemiring R] {ax ay : NDArray R} {xs ys hyper : List ι} {d : ι → ℕ}
    (sx : ax.shape = xs.map d) (sy : ay.shape = ys.map d) (hx : xs.Nodup) (hy : ys.Nodup)
    (hh : ∀ x ∈ hyper, x ∈ xs ∧ x ∈ ys) :
    ∃ az, tensordot ax xs ay ys hyper =
        .ok (az, uniqueEverseen hyper ++ xs.filter (· ∉ ys) ++ ys.filter (· ∉ xs)) ∧
      az.shape = (uniqueEverseen hyper ++ xs.filter (· ∉ ys) ++ ys.filter (· ∉ xs)).map d ∧
      ∀ f : ι → ℕ, (∀ x ∈ uniqueEverseen hyper ++ xs.filter (· ∉ ys) ++ ys.filter (· ∉ xs), f x < d x) →
        az.get ((uniqueEverseen hyper ++ xs.filter (· ∉ ys) ++ ys.filter (· ∉ xs)).map f) =
        sumOver d (xs.filter fun x => x ∈ ys ∧ x ∉ hyper) (fun g => ax.get (xs.map g) * ay.get (ys.map g)) f := by
  set H := uniqueEverseen hyper with hH
  set X := xs.filter (· ∉ ys) with hX
  set Y := ys.filter (· ∉ xs) with hY
  set S := xs.filter fun x => x ∈ ys ∧ x ∉ hyper with hS
  have nH : H.Nodup := uniqueEverseen_nodup hyper
  have mH : ∀ x, x ∈ H ↔ x ∈ hyper := fun x => mem_uniqueEverseen
  have mX : ∀ x, x ∈ X ↔ x ∈ xs ∧ x ∉ ys := fun x => by rw [hX, List.mem_filter, decide_eq_true_eq]
  have mY : ∀ x, x ∈ Y ↔ x ∈ ys ∧ x ∉ xs := fun x => by rw [hY, List.mem_filter, decide_eq_true_eq]
  have mS : ∀ x, x ∈ S ↔ x ∈ xs ∧ x ∈ ys ∧ x ∉ hyper := fun x => by rw [hS, List.mem_filter, decide_eq_true_eq]
  have nX : X.Nodup := hx.filter _
  have nY : Y.Nodup := hy.filter _
  have nS : S.Nodup := hx.filter _
  have p1 : (H ++ X ++ S).Perm xs := by
    refine perm_of_mem ?_ hx ?_
    · refine List.Nodup.append (List.Nodup.append nH nX ?_) nS ?_
      · intro x h1 h2; exact ((mX x).1 h2).2 (hh x ((mH x).1 h1)).2
      · intro x h1 h2
        have h2 := (mS x).1 h2
        rcases List.mem_append.1 h1 with h | h
        · exact h2.2.2 ((mH x).1 h)
        · exact ((mX x).1 h).2 h2.2.1
    · intro x
      simp only [List.mem_append, mH, mX, mS]
      constructor
      · rintro ((h | h) | h)
        · exact (hh x h).1
        · exact h.1
        · exact h.1
      · intro h; tauto
  have p2 : (H ++ S ++ Y).Perm ys := by
    refine perm_of_mem ?_ hy ?_
    · refine List.Nodup.append (List.Nodup.append nH nS ?_) nY ?_
      · intro x h1 h2; exact ((mS x).1 h2).2.2 ((mH x).1 h1)
      · intro x h1 h2
        have h2 := (mY x).1 h2
        rcases List.mem_append.1 h1 with h | h
        · exact h2.2 (hh x ((mH x).1 h)).1
        · exact h2.2 ((mS x).1 h).1
    · intro x
      simp only [List.mem_append, mH, mY, mS]
      constructor
      · rintro ((h | h) | h)
        · exact (hh x h).2
        · exact h.2.1
        · exact h.1
      · intro h; tauto
  set dims := dictLast ((OFS.make xs).iter.zip ax.shape ++ (OFS.make ys).iter.zip ay.shape) with hdims
  have eX : (OFS.make xs).iter = xs := uniqueEverseen_of_nodup hx
  have eY : (OFS.make ys).iter = ys := uniqueEverseen_of_nodup hy
  have hd : ∀ x, x ∈ xs ∨ x ∈ ys → dims x = some (d x) := by
    intro x hx'
    rw [hdims, eX, eY, sx, sy]
    refine dictLast_eq ?_ ?_
    · intro p hp
      rcases List.mem_append.1 hp with h | h
      · rw [List.zip_map_right, List.zip_eq_zipWith, List.zipWith_self] at h
        simp only [List.map_map, List.mem_map] at h
        obtain ⟨a, -, rfl⟩ := h; rfl
      · rw [List.zip_map_right, List.zip_eq_zipWith, List.zipWith_self] at h
        simp only [List.map_map, List.mem_map] at h
        obtain ⟨a, -, rfl⟩ := h; rfl
    · rw [List.map_append, List.map_fst_zip (by simp), List.map_fst_zip (by simp)]
      exact List.mem_append.2 hx'
  obtain ⟨mx, a1, a2, a3⟩ := toMatrix_spec (dims := dims) sx hx p1 fun x h => hd x (Or.inl h)
  obtain ⟨my, b1, b2, b3⟩ := toMatrix_spec (dims := dims) sy hy p2 fun x h => hd x (Or.inr h)
  have hz : ∀ x ∈ H ++ X ++ Y, dims x = some (d x) := by
    intro x h
    apply hd
    simp only [List.mem_append, mH, mX, mY] at h
    rcases h with (h | h) | h
    · exact Or.inl (hh x h).1
    · exact Or.inl h.1
    · exact Or.inr h.1
  have hmm : mx.matmul my = .ok ⟨[(H.map d).prod, (X.map d).prod, (Y.map d).prod], fun t =>
      ∑ l ∈ Finset.range (S.map d).prod,
        mx.get [(unravel [(H.map d).prod, (X.map d).prod, (Y.map d).prod] t).getD 0 0,
          (unravel [(H.map d).prod, (X.map d).prod, (Y.map d).prod] t).getD 1 0, l] *
        my.get [(unravel [(H.map d).prod, (X.map d).prod, (Y.map d).prod] t).getD 0 0, l,
          (unravel [(H.map d).prod, (X.map d).prod, (Y.map d).prod] t).getD 2 0]⟩ := by
    unfold NDArray.matmul
    rw [a2, b2]
    simp
  refine ⟨⟨(H ++ X ++ Y).map d, fun t =>
      ∑ l ∈ Finset.range (S.map d).prod,
        mx.get [(unravel [(H.map d).prod, (X.map d).prod, (Y.map d).prod] t).getD 0 0,
          (unravel [(H.map d).prod, (X.map d).prod, (Y.map d).prod] t).getD 1 0, l] *
        my.get [(unravel [(H.map d).prod, (X.map d).prod, (Y.map d).prod] t).getD 0 0, l,
          (unravel [(H.map d).prod, (X.map d).prod, (Y.map d).prod] t).getD 2 0]⟩, ?_, rfl, ?_⟩
  · unfold tensordot
    rw [dotPlan_ok hx hy hh]
    simp only [← hdims]
    rw [eX, eY, ← hH, ← hX, ← hY, ← hS, a1]
    simp only
    rw [b1]
    simp only
    rw [hmm]
    simp only
    rw [dimList_ok hz]
    simp only
    unfold NDArray.reshape
    rw [if_neg (by simp [List.map_append, List.prod_append, Nat.mul_assoc])]
  · intro f hf
    unfold NDArray.get
    simp only
    have hrav : ravel ((H ++ X ++ Y).map d) ((H ++ X ++ Y).map f) =
        ravel [(H.map d).prod, (X.map d).prod, (Y.map d).prod]
          [ravel (H.map d) (H.map f), ravel (X.map d) (X.map f), ravel (Y.map d) (Y.map f)] := by
      rw [List.map_append, List.map_append, List.map_append, List.map_append, ravel_append _ _ _ _ (by simp),
        ravel_append _ _ _ _ (by simp)]
      simp only [ravel, List.prod_cons, List.prod_nil]
      ring
    have lt : ∀ l : List ι, (∀ x ∈ l, x ∈ H ++ X ++ Y) → ravel (l.map d) (l.map f) < (l.map d).prod := fun l hl =>
      ravel_lt (forall2_map fun x hx => hf x (hl x hx))
    have hun := unravel_ravel (ds := [(H.map d).prod, (X.map d).prod, (Y.map d).prod])
      (is := [ravel (H.map d) (H.map f), ravel (X.map d) (X.map f), ravel (Y.map d) (Y.map f)])
      (.cons (lt H fun x h => by simp [h]) (.cons (lt X fun x h => by simp [h])
        (.cons (lt Y fun x h => by simp [h]) .nil)))
    rw [hrav, hun]
    simp only [List.getD_cons_zero, List.getD_cons_succ]
    rw [sum_ravel nS _ f]
    refine sumOver_congr fun g g1 g2 => ?_
    have hfg : ∀ l : List ι, (∀ x ∈ l, x ∉ S) → l.map f = l.map g := fun l hl =>
      List.map_congr_left fun x hx => (g1 x (hl x hx)).symm
    have hgd : ∀ x, x ∈ xs ∨ x ∈ ys → g x < d x := by
      intro x hx'
      by_cases hxs : x ∈ S
      · exact g2 x hxs
      · rw [g1 x hxs]
        apply hf
        simp only [List.mem_append, mH, mX, mY]
        rw [mS] at hxs
        tauto
    rw [hfg H fun x h hs => ((mS x).1 hs).2.2 ((mH x).1 h), hfg X fun x h hs => ((mX x).1 h).2 ((mS x).1 hs).2.1,
      hfg Y fun x h hs => ((mY x).1 h).2 ((mS x).1 hs).1]
    have := a3 g fun x h => hgd x (Or.inl h)
    have h' := b3 g fun x h => hgd x (Or.inr h)
    unfold NDArray.get at this h'
    rw [this, h']

end TNCO
