import Verif.Lemmas.Tensordot
import Verif.Lemmas.PathTree
import Verif.Lemmas.PathOut

/-! The loop of `contract`. -/

namespace TNCO
variable {ι R : Type} [DecidableEq ι] [CommSemiring R]

/-- The entry of a tensor with named indices. -/
def tensorAt (t : NDArray R × List ι) (g : ι → ℕ) : R := t.1.get (t.2.map g)

def heldL (ts : List (NDArray R × List ι)) : List ι := (ts.map Prod.snd).flatten

structure CInv (d : ι → ℕ) (hc : ι → ℤ) (ts : List (NDArray R × List ι)) : Prop where
  nodup : ∀ t ∈ ts, t.2.Nodup
  shape : ∀ t ∈ ts, t.1.shape = t.2.map d
  count : ∀ x ∈ heldL ts, hc x = ((heldL ts).count x : ℤ) - 1

theorem heldL_perm {ts ts' : List (NDArray R × List ι)} (h : ts.Perm ts') : (heldL ts).Perm (heldL ts') :=
  (h.map _).flatten

theorem CInv.perm {d : ι → ℕ} {hc : ι → ℤ} {ts ts' : List (NDArray R × List ι)} (h : CInv d hc ts) (p : ts.Perm ts') :
    CInv d hc ts' where
  nodup t ht := h.nodup t (p.mem_iff.2 ht)
  shape t ht := h.shape t (p.mem_iff.2 ht)
  count x hx := by rw [h.count x ((heldL_perm p).mem_iff.2 hx), (heldL_perm p).count_eq]

omit [CommSemiring R] in
theorem count_of_nodup {l : List ι} (h : l.Nodup) (x : ι) : l.count x = if x ∈ l then 1 else 0 := by
  split
  · rename_i hx; exact List.count_eq_one_of_mem h hx
  · rename_i hx; exact List.count_eq_zero_of_not_mem hx

/-- What one contraction does. -/
theorem contract_step {enum : Finset ι → List ι} (he : EnumOk enum) {d : ι → ℕ} {hc : ι → ℤ} {out : Finset ι}
    {ax ay : NDArray R} {xs ys : List ι} {rest : List (NDArray R × List ι)}
    (h : CInv d hc ((ax, xs) :: (ay, ys) :: rest)) :
    countsOk hc xs ys = true ∧ ∃ az zs, tensordot ax xs ay ys (enum (keptInds hc out xs ys)) = .ok (az, zs) ∧
      tensordotInds xs ys (enum (keptInds hc out xs ys)) = .ok zs ∧
      CInv d (lowerCount hc xs ys) (rest ++ [(az, zs)]) ∧
      (∀ x, x ∈ heldL (rest ++ [(az, zs)]) ↔
        x ∈ heldL ((ax, xs) :: (ay, ys) :: rest) ∧ ¬ (x ∈ xs ∧ x ∈ ys ∧ x ∉ heldL rest ∧ x ∉ out)) ∧
      (∀ x, x ∉ out → 2 ≤ (heldL ((ax, xs) :: (ay, ys) :: rest)).count x → x ∈ heldL (rest ++ [(az, zs)]) →
        2 ≤ (heldL (rest ++ [(az, zs)])).count x) ∧
      ∀ g : ι → ℕ, (∀ x ∈ zs, g x < d x) → tensorAt (az, zs) g =
        sumOver d (xs.filter fun x => x ∈ ys ∧ x ∉ heldL rest ∧ x ∉ out) (fun g => tensorAt (ax, xs) g * tensorAt (ay, ys) g) g := by
  have nx : xs.Nodup := h.nodup (ax, xs) (by simp)
  have ny : ys.Nodup := h.nodup (ay, ys) (by simp)
  have sx : ax.shape = xs.map d := h.shape (ax, xs) (by simp)
  have sy : ay.shape = ys.map d := h.shape (ay, ys) (by simp)
  have hheld : heldL ((ax, xs) :: (ay, ys) :: rest) = xs ++ (ys ++ heldL rest) := by simp [heldL]
  have hcnt : ∀ x, (heldL ((ax, xs) :: (ay, ys) :: rest)).count x =
      (if x ∈ xs then 1 else 0) + ((if x ∈ ys then 1 else 0) + (heldL rest).count x) := by
    intro x
    rw [hheld, List.count_append, List.count_append, count_of_nodup nx, count_of_nodup ny]
  have hsh : ∀ x, x ∈ xs → x ∈ ys → hc x = 1 + ((heldL rest).count x : ℤ) := by
    intro x h1 h2
    rw [h.count x (by rw [hheld]; simp [h1]), hcnt, if_pos h1, if_pos h2]
    push_cast; ring
  have hk : ∀ x, x ∈ enum (keptInds hc out xs ys) ↔ x ∈ xs ∧ x ∈ ys ∧ (x ∈ heldL rest ∨ x ∈ out) := by
    intro x
    rw [(he _).2]
    unfold keptInds
    simp only [Finset.mem_union, Finset.mem_filter, Finset.mem_inter, List.mem_toFinset]
    constructor
    · rintro (⟨⟨h1, h2⟩, h3⟩ | ⟨h1, h2, h3⟩)
      · refine ⟨h1, h2, Or.inl ?_⟩
        rw [hsh x h1 h2] at h3
        exact List.count_pos_iff.1 (by omega)
      · exact ⟨h2, h3, Or.inr h1⟩
    · rintro ⟨h1, h2, h3 | h3⟩
      · refine Or.inl ⟨⟨h1, h2⟩, ?_⟩
        rw [hsh x h1 h2]
        have := List.count_pos_iff.2 h3
        omega
      · exact Or.inr ⟨h3, h1, h2⟩
  have hsub : ∀ x ∈ enum (keptInds hc out xs ys), x ∈ xs ∧ x ∈ ys := fun x hx =>
    ⟨((hk x).1 hx).1, ((hk x).1 hx).2.1⟩
  obtain ⟨az, e1, e2, e3⟩ := tensordot_spec sx sy nx ny hsub
  have hS : (xs.filter fun x => x ∈ ys ∧ x ∉ enum (keptInds hc out xs ys)) =
      xs.filter fun x => x ∈ ys ∧ x ∉ heldL rest ∧ x ∉ out := by
    refine List.filter_congr fun x hx => ?_
    rw [decide_eq_decide, hk]
    tauto
  rw [hS] at e3
  rw [uniqueEverseen_of_nodup (he _).1] at e1 e2 e3
  set zs := enum (keptInds hc out xs ys) ++ xs.filter (· ∉ ys) ++ ys.filter (· ∉ xs) with hzs
  have hz : ∀ x, x ∈ zs ↔ (x ∈ xs ∧ x ∈ ys ∧ (x ∈ heldL rest ∨ x ∈ out)) ∨ (x ∈ xs ∧ x ∉ ys) ∨ (x ∈ ys ∧ x ∉ xs) := by
    intro x
    rw [hzs]
    simp only [List.mem_append, hk, List.mem_filter, decide_eq_true_eq]
    tauto
  have nz : zs.Nodup := by
    refine List.Nodup.append (List.Nodup.append (he _).1 (nx.filter _) ?_) (ny.filter _) ?_
    · intro x h1 h2
      simp only [List.mem_filter, decide_eq_true_eq] at h2
      exact h2.2 (hsub x h1).2
    · intro x h1 h2
      simp only [List.mem_filter, decide_eq_true_eq] at h2
      rcases List.mem_append.1 h1 with h3 | h3
      · exact h2.2 (hsub x h3).1
      · exact h2.2 (List.mem_filter.1 h3).1
  have hheld' : heldL (rest ++ [(az, zs)]) = heldL rest ++ zs := by simp [heldL]
  have hcnt' : ∀ x, (heldL (rest ++ [(az, zs)])).count x = (heldL rest).count x + if x ∈ zs then 1 else 0 := by
    intro x; rw [hheld', List.count_append, count_of_nodup nz]
  refine ⟨?_, az, zs, e1, ?_, ⟨?_, ?_, ?_⟩, ?_, ?_, ?_⟩
  · unfold countsOk
    refine decide_eq_true fun x hx => ?_
    rw [Finset.mem_inter, List.mem_toFinset, List.mem_toFinset] at hx
    rw [hsh x hx.1 hx.2]; omega
  · unfold tensordotInds
    rw [dotPlan_ok nx ny hsub, uniqueEverseen_of_nodup (he _).1]
  · intro t ht
    rcases List.mem_append.1 ht with h1 | h1
    · exact h.nodup t (by simp [h1])
    · rw [List.mem_singleton] at h1; subst h1; exact nz
  · intro t ht
    rcases List.mem_append.1 ht with h1 | h1
    · exact h.shape t (by simp [h1])
    · rw [List.mem_singleton] at h1; subst h1; exact e2
  · intro x hx
    rw [hcnt']
    rw [hheld', List.mem_append] at hx
    have hold : x ∈ xs ∨ x ∈ ys ∨ x ∈ heldL rest := by
      rcases hx with h1 | h1
      · exact Or.inr (Or.inr h1)
      · rw [hz] at h1; tauto
    have hc0 := h.count x (by rw [hheld]; simp only [List.mem_append]; exact hold)
    rw [hcnt] at hc0
    unfold lowerCount
    simp only [Finset.mem_inter, List.mem_toFinset]
    rw [hc0]
    by_cases h1 : x ∈ xs <;> by_cases h2 : x ∈ ys
    · have h3 : x ∈ zs := by
        rcases hx with h3 | h3
        · exact (hz x).2 (Or.inl ⟨h1, h2, Or.inl h3⟩)
        · exact h3
      rw [if_pos ⟨h1, h2⟩, if_pos h1, if_pos h2, if_pos h3]; push_cast; ring
    · rw [if_neg (fun h => h2 h.2), if_pos h1, if_neg h2, if_pos ((hz x).2 (Or.inr (Or.inl ⟨h1, h2⟩)))]
      push_cast; ring
    · rw [if_neg (fun h => h1 h.1), if_neg h1, if_pos h2, if_pos ((hz x).2 (Or.inr (Or.inr ⟨h2, h1⟩)))]
      push_cast; ring
    · have h3 : x ∉ zs := by rw [hz]; tauto
      rw [if_neg (fun h => h1 h.1), if_neg h1, if_neg h2, if_neg h3]
      push_cast; ring
  · intro x
    rw [hheld, hheld']
    simp only [List.mem_append, hz]
    tauto
  · intro x ho h2 hx
    rw [hcnt] at h2
    rw [hcnt']
    rw [hheld', List.mem_append, hz] at hx
    by_cases h3 : x ∈ heldL rest
    · have hr := List.count_pos_iff.2 h3
      by_cases h4 : x ∈ xs ∨ x ∈ ys
      · rw [if_pos ((hz x).2 (by tauto))]; omega
      · rw [if_neg (fun h => h4 (Or.inl h)), if_neg (fun h => h4 (Or.inr h))] at h2
        omega
    · rw [List.count_eq_zero_of_not_mem h3] at h2
      exfalso
      have h4 : ¬ (x ∈ xs ∧ x ∈ ys) := by tauto
      by_cases h5 : x ∈ xs
      · rw [if_pos h5, if_neg (fun h => h4 ⟨h5, h⟩)] at h2; omega
      · rw [if_neg h5] at h2
        split at h2 <;> omega
  · intro g hg
    exact e3 g hg

/-- The product of the entries. -/
def prodAt (ts : List (NDArray R × List ι)) (g : ι → ℕ) : R := (ts.map fun t => tensorAt t g).prod

theorem prodAt_perm {ts ts' : List (NDArray R × List ι)} (h : ts.Perm ts') (g : ι → ℕ) : prodAt ts g = prodAt ts' g :=
  (h.map _).prod_eq

theorem prodAt_congr {ts : List (NDArray R × List ι)} {g g' : ι → ℕ} (h : ∀ x ∈ heldL ts, g x = g' x) :
    prodAt ts g = prodAt ts g' := by
  unfold prodAt
  congr 1
  refine List.map_congr_left fun t ht => ?_
  unfold tensorAt
  congr 1
  refine List.map_congr_left fun x hx => h x ?_
  unfold heldL
  exact List.mem_flatten.2 ⟨t.2, List.mem_map.2 ⟨t, ht, rfl⟩, hx⟩

/-- `l` lists the indices of the tensors which are not output indices. -/
def Inner (out : Finset ι) (ts : List (NDArray R × List ι)) (l : List ι) : Prop :=
  l.Nodup ∧ ∀ x, x ∈ l ↔ x ∈ heldL ts ∧ x ∉ out

structure CStep (d : ι → ℕ) (out : Finset ι) (ts ts' : List (NDArray R × List ι)) : Prop where
  value : ∀ {l l' : List ι}, Inner out ts l → Inner out ts' l' → ∀ f : ι → ℕ, (∀ x ∈ out, f x < d x) →
    sumOver d l (prodAt ts) f = sumOver d l' (prodAt ts') f
  keep : ∀ x ∈ out, x ∈ heldL ts → x ∈ heldL ts'
  sub : ∀ x, x ∈ heldL ts' → x ∈ heldL ts
  two : (∀ x, x ∈ heldL ts → x ∉ out → 2 ≤ (heldL ts).count x) →
    ∀ x, x ∈ heldL ts' → x ∉ out → 2 ≤ (heldL ts').count x

theorem Inner.perm {out : Finset ι} {ts ts' : List (NDArray R × List ι)} {l : List ι} (h : Inner out ts l)
    (p : ts.Perm ts') : Inner out ts' l :=
  ⟨h.1, fun x => by rw [h.2, (heldL_perm p).mem_iff]⟩

theorem exists_inner (out : Finset ι) (ts : List (NDArray R × List ι)) : ∃ l, Inner out ts l :=
  ⟨(uniqueEverseen (heldL ts)).filter (· ∉ out), (uniqueEverseen_nodup _).filter _, fun x => by
    rw [List.mem_filter, mem_uniqueEverseen, decide_eq_true_eq]⟩

theorem CStep.refl {d : ι → ℕ} {out : Finset ι} {ts ts' : List (NDArray R × List ι)} (p : ts.Perm ts') :
    CStep d out ts ts' where
  value {l l'} hl hl' f hf := by
    have h2 := hl.perm p
    have : l.Perm l' := perm_of_mem hl.1 hl'.1 fun x => by rw [h2.2, hl'.2]
    rw [sumOver_perm this hl.1]
    exact sumOver_congr fun g _ _ => prodAt_perm p g
  keep x _ hx := (heldL_perm p).mem_iff.1 hx
  sub x hx := (heldL_perm p).mem_iff.2 hx
  two h x hx ho := by
    rw [← (heldL_perm p).count_eq]
    exact h x ((heldL_perm p).mem_iff.2 hx) ho

theorem CStep.trans {d : ι → ℕ} {out : Finset ι} {ts ts' ts'' : List (NDArray R × List ι)} (h : CStep d out ts ts')
    (h' : CStep d out ts' ts'') : CStep d out ts ts'' where
  value {l l''} hl hl'' f hf := by
    obtain ⟨l', hl'⟩ := exists_inner out ts'
    rw [h.value hl hl' f hf, h'.value hl' hl'' f hf]
  keep x ho hx := h'.keep x ho (h.keep x ho hx)
  sub x hx := h.sub x (h'.sub x hx)
  two h2 := h'.two (h.two h2)

theorem cstep {d : ι → ℕ} {out : Finset ι} {ax ay az : NDArray R} {xs ys zs : List ι} {rest : List (NDArray R × List ι)}
    (nx : xs.Nodup)
    (hheld : ∀ x, x ∈ heldL (rest ++ [(az, zs)]) ↔
        x ∈ heldL ((ax, xs) :: (ay, ys) :: rest) ∧ ¬ (x ∈ xs ∧ x ∈ ys ∧ x ∉ heldL rest ∧ x ∉ out))
    (htwo : ∀ x, x ∉ out → 2 ≤ (heldL ((ax, xs) :: (ay, ys) :: rest)).count x → x ∈ heldL (rest ++ [(az, zs)]) →
        2 ≤ (heldL (rest ++ [(az, zs)])).count x)
    (hval : ∀ g : ι → ℕ, (∀ x ∈ zs, g x < d x) → tensorAt (az, zs) g =
        sumOver d (xs.filter fun x => x ∈ ys ∧ x ∉ heldL rest ∧ x ∉ out)
          (fun g => tensorAt (ax, xs) g * tensorAt (ay, ys) g) g) :
    CStep d out ((ax, xs) :: (ay, ys) :: rest) (rest ++ [(az, zs)]) where
  value {l l'} hl hl' f hf := by
    set S := xs.filter fun x => x ∈ ys ∧ x ∉ heldL rest ∧ x ∉ out with hS
    have mS : ∀ x, x ∈ S ↔ x ∈ xs ∧ x ∈ ys ∧ x ∉ heldL rest ∧ x ∉ out := fun x => by
      rw [hS, List.mem_filter, decide_eq_true_eq]
    have nS : S.Nodup := nx.filter _
    have hp : l.Perm (l' ++ S) := by
      refine perm_of_mem hl.1 (List.Nodup.append hl'.1 nS ?_) ?_
      · intro x h1 h2
        rw [hl'.2, hheld] at h1
        exact h1.1.2 ((mS x).1 h2)
      · intro x
        rw [List.mem_append, hl.2, hl'.2, hheld, mS]
        constructor
        · intro h; by_cases h5 : x ∈ xs ∧ x ∈ ys ∧ x ∉ heldL rest ∧ x ∉ out
          · exact Or.inr h5
          · exact Or.inl ⟨⟨h.1, h5⟩, h.2⟩
        · rintro (h | h)
          · exact ⟨h.1.1, h.2⟩
          · exact ⟨by simp [heldL, h.1], h.2.2.2⟩
    rw [sumOver_perm hp hl.1, sumOver_append]
    refine sumOver_congr fun g g1 g2 => ?_
    have hg : ∀ x ∈ zs, g x < d x := by
      intro x hx
      by_cases ho : x ∈ l'
      · exact g2 x ho
      · rw [g1 x ho]
        apply hf
        by_contra h1
        exact ho ((hl'.2 x).2 ⟨by simp [heldL, hx], h1⟩)
    have e1 : ∀ g, prodAt ((ax, xs) :: (ay, ys) :: rest) g = prodAt rest g * (tensorAt (ax, xs) g * tensorAt (ay, ys) g) := by
      intro g; simp only [prodAt, List.map_cons, List.prod_cons]; ring
    have e2 : prodAt (rest ++ [(az, zs)]) g = prodAt rest g * tensorAt (az, zs) g := by
      simp [prodAt]
    rw [e2, hval g hg, ← sumOver_mul_left (l := S) (prodAt rest)]
    · exact sumOver_congr fun g _ _ => e1 g
    · intro g' hg'
      refine prodAt_congr fun x hx => hg' x fun h => ?_
      exact ((mS x).1 h).2.2.1 hx
  keep x ho hx := (hheld x).2 ⟨hx, fun h => h.2.2.2 ho⟩
  sub x hx := ((hheld x).1 hx).1
  two h x hx ho := htwo x ho (h x ((hheld x).1 hx).1 ho) hx

theorem popPair_none {α : Type} {F : List α} {x y : ℕ} (hxy : x ≠ y) : popPair F x y = none ↔ ¬ (x < F.length ∧ y < F.length) := by
  constructor
  · intro h h'
    rw [popPair_of_lt h'.1 h'.2 hxy] at h
    simp at h
  · intro h
    unfold popPair
    rw [List.getElem?_eq_none (by omega)]

/-- The loop, for every path. -/
theorem contractLoop_spec {enum : Finset ι → List ι} (he : EnumOk enum) {d : ι → ℕ} {out : Finset ι}
    (path : List (ℕ × ℕ)) {hc : ι → ℤ} {ts : List (NDArray R × List ι)} {F : List Term} (h : CInv d hc ts)
    (hF : F.length = ts.length) :
    (∃ ts', contractLoop enum out hc ts path = .ok ts' ∧ contractIndsLoop enum out hc (ts.map Prod.snd) path =
        .ok (ts'.map Prod.snd) ∧ (∃ F', replay F path = some F' ∧ F'.length = ts'.length) ∧ (∃ hc', CInv d hc' ts') ∧
        CStep d out ts ts') ∨
    (∃ e, (e = .valueError ∨ e = .indexError) ∧ contractLoop enum out hc ts path = .error e ∧
      contractIndsLoop enum out hc (ts.map Prod.snd) path = .error e ∧ replay F path = none) := by
  induction path generalizing hc ts F with
  | nil => exact Or.inl ⟨ts, rfl, rfl, ⟨F, rfl, hF⟩, ⟨hc, h⟩, CStep.refl (.refl _)⟩
  | cons s path ih =>
    obtain ⟨x, y⟩ := s
    by_cases hxy : x = y
    · refine Or.inr ⟨.valueError, Or.inl rfl, ?_, ?_, ?_⟩
      · simp [contractLoop, hxy]
      · simp [contractIndsLoop, hxy]
      · simp [replay, hxy]
    · rw [replay_cons hxy]
      unfold contractLoop contractIndsLoop
      rw [if_neg hxy, if_neg hxy, popPair_map]
      cases hp : popPair ts x y with
      | none =>
        have h2 : popPair F x y = none := by
          rw [popPair_none hxy] at hp ⊢; rwa [hF]
        exact Or.inr ⟨.indexError, Or.inr rfl, rfl, rfl, by rw [h2]; rfl⟩
      | some r =>
        obtain ⟨⟨ax, xs⟩, ⟨ay, ys⟩, rest⟩ := r
        have hperm := popPair_perm hp
        obtain ⟨c1, az, zs, c2, c3, c4, c5, c6, c7⟩ := contract_step (out := out) he (h.perm hperm)
        have hlen : ∀ {α : Type} {L : List α} {a b r}, popPair L x y = some (a, b, r) → L.length = r.length + 2 := by
          intro α L a b r hh; simpa using (popPair_perm hh).length_eq
        have h2 : popPair F x y ≠ none := by
          intro h2
          rw [popPair_none hxy, hF, ← popPair_none hxy, hp] at h2
          simp at h2
        obtain ⟨⟨a, b, rF⟩, h2⟩ := Option.ne_none_iff_exists'.1 h2
        rw [h2]
        simp only [Option.map_some, c1, c2, c3, Bool.not_true, Bool.false_eq_true, if_false]
        have hst : CStep d out ts (rest ++ [(az, zs)]) :=
          (CStep.refl hperm).trans (cstep ((h.perm hperm).nodup (ax, xs) (by simp)) c5 c6 c7)
        have hl1 := hlen hp
        have hl2 := hlen h2
        rcases ih (F := rF ++ [.pair a b]) c4 (by simp; omega) with ⟨ts', i1, i2, i3, i4, i5⟩ | ⟨e, i1, i2, i3, i4⟩
        · refine Or.inl ⟨ts', i1, ?_, i3, i4, hst.trans i5⟩
          rw [← i2]; simp
        · refine Or.inr ⟨e, i1, i2, ?_, i4⟩
          rw [← i3]; simp

end TNCO
