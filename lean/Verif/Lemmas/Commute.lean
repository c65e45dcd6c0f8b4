import Verif.Lemmas.GateOp
import Verif.Model.Circuit
import Verif.Lemmas.Unique

/-! The commutation test. -/

namespace TNCO
variable {Q K : Type} [DecidableEq Q] [Field K] [StarRing K] [DecidableEq K]

theorem isValidGate_iff (g : Gate Q K) : isValidGate g = true ↔ IsGate g := by
  unfold isValidGate
  constructor
  · intro h
    simp only [Bool.and_eq_true, decide_eq_true_eq] at h
    obtain ⟨⟨h1, h2⟩, h3⟩ := h
    refine ⟨fun e => by rw [e] at h1; simp at h1, h3, ?_⟩
    split at h2
    · rename_i n m e
      simp only [Bool.and_eq_true, decide_eq_true_eq] at h2
      rw [e, ← h2.1, h2.2]
    · cases h2
  · intro h
    rw [h.shape]
    simp only [Bool.and_eq_true, decide_eq_true_eq]
    exact ⟨⟨List.length_pos_iff.2 h.nonempty, trivial, trivial⟩, h.nodup⟩

theorem reshape_gate {g : Gate Q K} (hg : IsGate g) :
    g.1.reshape (List.replicate (2 * g.2.length) 2) = .ok ⟨List.replicate (2 * g.2.length) 2, g.1.data⟩ := by
  unfold NDArray.reshape
  rw [if_neg]
  rw [hg.shape, List.prod_replicate, two_mul, pow_add]
  simp

/-- `tensordot` without hyper-indices. -/
theorem tensordot_names {ι R : Type} [DecidableEq ι] [CommSemiring R] {ax ay : NDArray R} {xs ys : List ι} {d : ι → ℕ}
    (sx : ax.shape = xs.map d) (sy : ay.shape = ys.map d) (hx : xs.Nodup) (hy : ys.Nodup) :
    ∃ az zs S, tensordot ax xs ay ys [] = .ok (az, zs) ∧ zs.Nodup ∧ S.Nodup ∧ az.shape = zs.map d ∧
      (∀ x, x ∈ zs ↔ (x ∈ xs ∧ x ∉ ys) ∨ (x ∈ ys ∧ x ∉ xs)) ∧ (∀ x, x ∈ S ↔ x ∈ xs ∧ x ∈ ys) ∧
      ∀ f : ι → ℕ, (∀ x ∈ zs, f x < d x) → az.get (zs.map f) = sumOver d S (fun g => ax.get (xs.map g) * ay.get (ys.map g)) f := by
  obtain ⟨az, h1, h2, h3⟩ := tensordot_spec sx sy hx hy (hyper := []) (by simp)
  rw [show uniqueEverseen ([] : List ι) = [] from rfl, List.nil_append] at h1 h2 h3
  refine ⟨az, _, _, h1, ?_, hx.filter _, h2, ?_, ?_, h3⟩
  · refine List.Nodup.append (hx.filter _) (hy.filter _) ?_
    intro p p1 p2
    rw [List.mem_filter, decide_eq_true_eq] at p1 p2
    exact p2.2 p1.1
  · intro x
    rw [List.mem_append, List.mem_filter, List.mem_filter, decide_eq_true_eq, decide_eq_true_eq]
  · intro x
    rw [List.mem_filter, decide_eq_true_eq]
    simp

theorem transposeNames_spec {ι : Type} [DecidableEq ι] {a : NDArray K} {xs ys : List ι} {d : ι → ℕ} (hs : a.shape = xs.map d) (hn : xs.Nodup)
    (hp : ys.Perm xs) :
    ∃ b, transposeNames a xs ys = .ok b ∧ b.shape = ys.map d ∧ ∀ f : ι → ℕ, (∀ x ∈ xs, f x < d x) → b.get (ys.map f) = a.get (xs.map f) := by
  obtain ⟨b, h1, h2, h3⟩ := transpose_named hs hn hp
  refine ⟨b, ?_, h2, h3⟩
  unfold transposeNames
  rw [if_neg, h1]
  rintro ⟨p, p1, p2⟩
  exact p2 (hp.mem_iff.1 p1)

theorem commuteContract_spec {A B : Gate Q K} (hA : IsGate A) (hB : IsGate B) {a b : NDArray K}
    (sa : a.shape = List.replicate (2 * A.2.length) 2) (da : a.data = A.1.data)
    (sb : b.shape = List.replicate (2 * B.2.length) 2) (db : b.data = B.1.data)
    {sh all : List Q} (hsh : sh.Nodup) (hall : all.Nodup) (msh : ∀ q, q ∈ sh ↔ q ∈ A.2 ∧ q ∈ B.2) (mall : ∀ q, q ∈ all ↔ q ∈ A.2 ∨ q ∈ B.2) :
    ∃ ab, commuteContract sh all a A.2 b B.2 = .ok ab ∧ ab.shape = List.replicate (2 * all.length) 2 ∧
      ∀ x h : Q → ℕ, (∀ q ∈ all, x q < 2) → (∀ q ∈ all, h q < 2) → ab.get (all.map x ++ all.map h) = prodKernel A B sh x h := by
  set xa := (A.2.map fun q => (q, Tag.i)) ++ A.2.map fun q => (q, if q ∈ sh then Tag.shared else Tag.f) with hxa
  set xb := (B.2.map fun q => (q, if q ∈ sh then Tag.shared else Tag.i)) ++ B.2.map fun q => (q, Tag.f) with hxb
  set xab := (all.map fun q => (q, Tag.i)) ++ all.map fun q => (q, Tag.f) with hxab
  have inj : ∀ (t : Q → Tag), Function.Injective fun q => (q, t q) := fun t a b h => by
    simp only [Prod.mk.injEq] at h; exact h.1
  have mxa : ∀ q t, (q, t) ∈ xa ↔ q ∈ A.2 ∧ (t = Tag.i ∨ t = if q ∈ sh then Tag.shared else Tag.f) := by
    intro q t
    rw [hxa, List.mem_append, List.mem_map, List.mem_map]
    constructor
    · rintro (⟨q', h1, h2⟩ | ⟨q', h1, h2⟩)
      · simp only [Prod.mk.injEq] at h2
        obtain ⟨rfl, rfl⟩ := h2
        exact ⟨h1, Or.inl rfl⟩
      · simp only [Prod.mk.injEq] at h2
        obtain ⟨rfl, rfl⟩ := h2
        exact ⟨h1, Or.inr rfl⟩
    · rintro ⟨h1, rfl | rfl⟩
      · exact Or.inl ⟨q, h1, rfl⟩
      · exact Or.inr ⟨q, h1, rfl⟩
  have mxb : ∀ q t, (q, t) ∈ xb ↔ q ∈ B.2 ∧ (t = Tag.f ∨ t = if q ∈ sh then Tag.shared else Tag.i) := by
    intro q t
    rw [hxb, List.mem_append, List.mem_map, List.mem_map]
    constructor
    · rintro (⟨q', h1, h2⟩ | ⟨q', h1, h2⟩)
      · simp only [Prod.mk.injEq] at h2
        obtain ⟨rfl, rfl⟩ := h2
        exact ⟨h1, Or.inr rfl⟩
      · simp only [Prod.mk.injEq] at h2
        obtain ⟨rfl, rfl⟩ := h2
        exact ⟨h1, Or.inl rfl⟩
    · rintro ⟨h1, rfl | rfl⟩
      · exact Or.inr ⟨q, h1, rfl⟩
      · exact Or.inl ⟨q, h1, rfl⟩
  have mxab : ∀ q t, (q, t) ∈ xab ↔ q ∈ all ∧ (t = Tag.i ∨ t = Tag.f) := by
    intro q t
    rw [hxab, List.mem_append, List.mem_map, List.mem_map]
    constructor
    · rintro (⟨q', h1, h2⟩ | ⟨q', h1, h2⟩)
      · simp only [Prod.mk.injEq] at h2
        obtain ⟨rfl, rfl⟩ := h2
        exact ⟨h1, Or.inl rfl⟩
      · simp only [Prod.mk.injEq] at h2
        obtain ⟨rfl, rfl⟩ := h2
        exact ⟨h1, Or.inr rfl⟩
    · rintro ⟨h1, rfl | rfl⟩
      · exact Or.inl ⟨q, h1, rfl⟩
      · exact Or.inr ⟨q, h1, rfl⟩
  have nxa : xa.Nodup := by
    rw [hxa]
    refine List.Nodup.append (hA.nodup.map (inj _)) (hA.nodup.map (inj _)) ?_
    intro p h1 h2
    obtain ⟨q, -, rfl⟩ := List.mem_map.1 h1
    obtain ⟨q', -, h3⟩ := List.mem_map.1 h2
    simp only [Prod.mk.injEq] at h3
    have := h3.2
    split at this <;> cases this
  have nxb : xb.Nodup := by
    rw [hxb]
    refine List.Nodup.append (hB.nodup.map (inj _)) (hB.nodup.map (inj _)) ?_
    intro p h1 h2
    obtain ⟨q, -, rfl⟩ := List.mem_map.1 h1
    obtain ⟨q', -, h3⟩ := List.mem_map.1 h2
    simp only [Prod.mk.injEq] at h3
    have := h3.2
    split at this <;> cases this
  have nxab : xab.Nodup := by
    rw [hxab]
    refine List.Nodup.append (hall.map (inj _)) (hall.map (inj _)) ?_
    intro p h1 h2
    obtain ⟨q, -, rfl⟩ := List.mem_map.1 h1
    obtain ⟨q', -, h3⟩ := List.mem_map.1 h2
    simp at h3
  have rep : ∀ (n : ℕ) (l m : List Q), l.length = n → m.length = n → ∀ t t' : Q → Tag,
      List.replicate (2 * n) 2 = ((l.map fun q => (q, t q)) ++ m.map fun q => (q, t' q)).map fun _ => 2 := by
    intro n l m hl hm t t'
    rw [List.map_const']
    congr 1
    simp [hl, hm]
    omega
  obtain ⟨ab, inds, S, h1, ninds, nS, h2, minds', mS, h3⟩ := tensordot_names (d := fun _ => 2) (xs := xa) (ys := xb) (ax := a) (ay := b)
    (by rw [sa, hxa]; exact rep _ _ _ rfl rfl _ _) (by rw [sb, hxb]; exact rep _ _ _ rfl rfl _ _) nxa nxb
  have minds : ∀ p, p ∈ xab ↔ p ∈ inds := by
    rintro ⟨q, t⟩
    rw [mxab, minds', mxa, mxb, mall]
    by_cases ha : q ∈ A.2 <;> by_cases hb : q ∈ B.2
    · have hs : q ∈ sh := (msh q).2 ⟨ha, hb⟩
      cases t <;> simp [ha, hb, hs]
    · have hs : q ∉ sh := fun h => hb ((msh q).1 h).2
      cases t <;> simp [ha, hb, hs]
    · have hs : q ∉ sh := fun h => ha ((msh q).1 h).1
      cases t <;> simp [ha, hb, hs]
    · cases t <;> simp [ha, hb]
  have perm : xab.Perm inds := perm_of_mem nxab ninds minds
  obtain ⟨b', t1, t2, t3⟩ := transposeNames_spec h2 ninds perm
  refine ⟨b', ?_, ?_, ?_⟩
  · unfold commuteContract
    simp only
    rw [← hxa, ← hxb, ← hxab, h1]
    exact t1
  · rw [t2, hxab]
    exact (rep _ _ _ rfl rfl _ _).symm
  · intro x h hx hh
    set k : Q × Tag → ℕ := fun p => match p.2 with | .i => x p.1 | .f => h p.1 | .shared => 0 with hk
    have hkb : ∀ p ∈ inds, k p < 2 := by
      rintro ⟨q, t⟩ hp
      obtain ⟨hq, ht⟩ := (mxab q t).1 ((minds _).2 hp)
      rcases ht with rfl | rfl
      · exact hx q hq
      · exact hh q hq
    have e1 := t3 k hkb
    rw [hxab, List.map_append, List.map_map, List.map_map] at e1
    rw [show ((fun p => k p) ∘ fun q => (q, Tag.i)) = x from rfl, show ((fun p => k p) ∘ fun q => (q, Tag.f)) = h from rfl] at e1
    rw [e1, h3 k hkb]
    have hS : S.Perm (sh.map fun q => (q, Tag.shared)) := by
      refine perm_of_mem nS (hsh.map (inj _)) ?_
      rintro ⟨q, t⟩
      rw [mS, mxa, mxb, List.mem_map]
      simp only [Prod.mk.injEq]
      by_cases ha : q ∈ A.2 <;> by_cases hb : q ∈ B.2
      · have hs : q ∈ sh := (msh q).2 ⟨ha, hb⟩
        cases t <;> simp [ha, hb, hs]
      · have hs : q ∉ sh := fun h => hb ((msh q).1 h).2
        cases t <;> simp [ha, hb, hs]
      · have hs : q ∉ sh := fun h => ha ((msh q).1 h).1
        cases t <;> simp [ha, hb, hs]
      · have hs : q ∉ sh := fun h => ha ((msh q).1 h).1
        cases t <;> simp [ha, hb, hs]
    rw [sumOver_perm hS nS]
    unfold prodKernel
    refine sumOver_map (inj fun _ => Tag.shared) fun k' hk' _ => ?_
    have hki : ∀ q, k' (q, Tag.i) = x q := fun q => hk' _ (by simp)
    have hkf : ∀ q, k' (q, Tag.f) = h q := fun q => hk' _ (by simp)
    congr 1
    · rw [← entry_reshape hA sa da, hxa, List.map_append, List.map_map, List.map_map]
      congr 2
      · exact List.map_congr_left fun q _ => hki q
      · refine List.map_congr_left fun q _ => ?_
        rw [Function.comp_apply]
        by_cases hs : q ∈ sh
        · rw [if_pos hs, over_mem hs]
        · rw [if_neg hs, over_not hs, hkf]
    · rw [← entry_reshape hB sb db, hxb, List.map_append, List.map_map, List.map_map]
      congr 2
      · refine List.map_congr_left fun q _ => ?_
        rw [Function.comp_apply]
        by_cases hs : q ∈ sh
        · rw [if_pos hs, over_mem hs]
        · rw [if_neg hs, over_not hs, hki]
      · exact List.map_congr_left fun q _ => hkf q

/-- The operators of two gates commute. -/
def OpsCommute (A B : Gate Q K) : Prop := ∀ (ψ : (Q → ℕ) → K) (x : Q → ℕ), BitVals x → applyGate A (applyGate B ψ) x = applyGate B (applyGate A ψ) x

theorem bits_of {l : List Q} {x y : Q → ℕ} (hx : BitVals x) (h1 : ∀ q, q ∉ l → y q = x q) (h2 : ∀ q ∈ l, y q < 2) : BitVals y := by
  intro q
  by_cases hq : q ∈ l
  · exact h2 q hq
  · rw [h1 q hq]; exact hx q

theorem opsCommute_iff {A B : Gate Q K} (hA : A.2.Nodup) (hB : B.2.Nodup) {sh sh' all : List Q} (hsh : sh.Nodup) (hsh' : sh'.Nodup) (hall : all.Nodup)
    (msh : ∀ q, q ∈ sh ↔ q ∈ A.2 ∧ q ∈ B.2) (msh' : ∀ q, q ∈ sh' ↔ q ∈ B.2 ∧ q ∈ A.2) (mall : ∀ q, q ∈ all ↔ q ∈ A.2 ∨ q ∈ B.2) :
    OpsCommute A B ↔ ∀ x h, BitVals x → BitVals h → prodKernel A B sh x h = prodKernel B A sh' x h := by
  constructor
  · intro hc x h hx hh
    have key := hc (fun y => if ∀ q ∈ all, y q = h q then 1 else 0) x hx
    rw [applyGate_mul hA hB hsh hall msh mall, applyGate_mul hB hA hsh' hall msh' (fun q => by rw [mall, or_comm])] at key
    have e : ∀ F : (Q → ℕ) → K, sumOver (fun _ => 2) all (fun y => F y * if ∀ q ∈ all, y q = h q then 1 else 0) x = F (over all h x) := by
      intro F
      rw [← sumOver_pick (d := fun _ => 2) hall F x h fun q _ => hh q]
      refine sumOver_congr fun y _ _ => ?_
      split <;> simp
    rw [e, e] at key
    have dep : ∀ (A B : Gate Q K) (sh : List Q), (∀ q ∈ A.2, q ∈ all) → (∀ q ∈ B.2, q ∈ all) →
        prodKernel A B sh x (over all h x) = prodKernel A B sh x h := by
      intro A B sh h1 h2
      unfold prodKernel
      refine sumOver_congr fun s _ _ => ?_
      congr 1
      · refine entry_congr (fun _ _ => rfl) fun q hq => ?_
        by_cases hs : q ∈ sh
        · rw [over_mem hs, over_mem hs]
        · rw [over_not hs, over_not hs, over_mem (h1 q hq)]
      · exact entry_congr (fun _ _ => rfl) fun q hq => over_mem (h2 q hq)
    rw [dep A B sh (fun q h => (mall q).2 (Or.inl h)) fun q h => (mall q).2 (Or.inr h),
      dep B A sh' (fun q h => (mall q).2 (Or.inr h)) fun q h => (mall q).2 (Or.inl h)] at key
    exact key
  · intro hk ψ x hx
    rw [applyGate_mul hA hB hsh hall msh mall, applyGate_mul hB hA hsh' hall msh' (fun q => by rw [mall, or_comm])]
    exact sumOver_congr fun y h1 h2 => by rw [hk x y hx (bits_of hx h1 h2)]

/-- Every position of an array with two groups of binary axes is given by two assignments. -/
theorem exists_bits {l : List Q} (hn : l.Nodup) {k : ℕ} (hk : k < 2 ^ l.length) : ∃ x : Q → ℕ, BitVals x ∧ binVal (l.map x) = k := by
  induction l generalizing k with
  | nil =>
    refine ⟨fun _ => 0, fun _ => by norm_num, ?_⟩
    simp at hk
    subst hk
    rfl
  | cons q l ih =>
    rw [List.nodup_cons] at hn
    rw [List.length_cons, pow_succ] at hk
    obtain ⟨x, hx, he⟩ := ih hn.2 (Nat.mod_lt k (y := 2 ^ l.length) (Nat.two_pow_pos _))
    have hdiv : k / 2 ^ l.length < 2 := Nat.div_lt_of_lt_mul (by omega)
    refine ⟨Function.update x q (k / 2 ^ l.length), ?_, ?_⟩
    · intro q'
      by_cases h : q' = q
      · subst h; rw [Function.update_self]; exact hdiv
      · rw [Function.update_of_ne h]; exact hx q'
    · rw [binVal_ravel, List.map_cons, List.map_cons, ravel, Function.update_self]
      have : l.map (Function.update x q (k / 2 ^ l.length)) = l.map x :=
        List.map_congr_left fun y hy => Function.update_of_ne (fun e : y = q => hn.1 (e ▸ hy)) _ _
      rw [this, ← binVal_ravel, he, List.map_const', List.prod_replicate]
      have := Nat.div_add_mod k (2 ^ l.length)
      rw [mul_comm] at this
      exact this

theorem exists_bits2 {l : List Q} (hn : l.Nodup) {k : ℕ} (hk : k < (List.replicate (2 * l.length) 2).prod) :
    ∃ x y : Q → ℕ, BitVals x ∧ BitVals y ∧ ravel (List.replicate (2 * l.length) 2) (l.map x ++ l.map y) = k := by
  rw [List.prod_replicate, two_mul, pow_add] at hk
  obtain ⟨x, hx, ex⟩ := exists_bits hn (k := k / 2 ^ l.length) (Nat.div_lt_of_lt_mul hk)
  obtain ⟨y, hy, ey⟩ := exists_bits hn (k := k % 2 ^ l.length) (Nat.mod_lt _ (Nat.two_pow_pos _))
  refine ⟨x, y, hx, hy, ?_⟩
  rw [two_mul, List.replicate_add, ravel_append _ _ _ _ (by simp), ← List.map_const', ← binVal_ravel, ← binVal_ravel, ex, ey, List.map_const',
    List.prod_replicate]
  have := Nat.div_add_mod k (2 ^ l.length)
  rw [mul_comm] at this
  exact this

/-- The test with matrices is exact. -/
theorem commute_true {A B : Gate Q K} (hA : IsGate A) (hB : IsGate B) :
    ∃ r, commute true A B = .ok r ∧ (r = true ↔ OpsCommute A B) := by
  set sh := A.2.filter (· ∈ B.2) with hsh
  set all := uniqueEverseen (A.2 ++ B.2) with hall
  have msh : ∀ q, q ∈ sh ↔ q ∈ A.2 ∧ q ∈ B.2 := fun q => by rw [hsh, List.mem_filter, decide_eq_true_eq]
  have msh' : ∀ q, q ∈ sh ↔ q ∈ B.2 ∧ q ∈ A.2 := fun q => by rw [msh, and_comm]
  have mall : ∀ q, q ∈ all ↔ q ∈ A.2 ∨ q ∈ B.2 := fun q => by rw [hall, mem_uniqueEverseen, List.mem_append]
  have nsh : sh.Nodup := hA.nodup.filter _
  have nall : all.Nodup := uniqueEverseen_nodup _
  have hiff := opsCommute_iff hA.nodup hB.nodup nsh nsh nall msh msh' mall
  unfold commute
  rw [(isValidGate_iff A).2 hA, (isValidGate_iff B).2 hB]
  simp only [Bool.not_true, Bool.false_eq_true, if_false]
  rw [← hsh, ← hall]
  by_cases h0 : sh = []
  · rw [if_pos h0]
    refine ⟨true, rfl, ?_⟩
    simp only [true_iff]
    rw [hiff, h0]
    intro x h _ _
    unfold prodKernel sumOver
    have : ∀ s g : Q → ℕ, over [] s g = g := fun s g => funext fun q => over_not (by simp)
    simp only [this]
    exact mul_comm _ _
  · rw [if_neg h0, reshape_gate hA, reshape_gate hB]
    simp only
    obtain ⟨ab, e1, s1, v1⟩ := commuteContract_spec hA hB (a := ⟨List.replicate (2 * A.2.length) 2, A.1.data⟩)
      (b := ⟨List.replicate (2 * B.2.length) 2, B.1.data⟩) rfl rfl rfl rfl nsh nall msh mall
    obtain ⟨ba, e2, s2, v2⟩ := commuteContract_spec hB hA (a := ⟨List.replicate (2 * B.2.length) 2, B.1.data⟩)
      (b := ⟨List.replicate (2 * A.2.length) 2, A.1.data⟩) rfl rfl rfl rfl nsh nall msh' (fun q => by rw [mall, or_comm])
    rw [e1, e2]
    refine ⟨_, rfl, ?_⟩
    rw [hiff]
    unfold allEqual
    rw [decide_eq_true_eq]
    constructor
    · intro h x y hx hy
      rw [← v1 x y (fun q _ => hx q) fun q _ => hy q, ← v2 x y (fun q _ => hx q) fun q _ => hy q]
      unfold NDArray.get
      rw [s2, ← s1]
      refine h _ ?_
      rw [s1]
      rw [show List.replicate (2 * all.length) 2 = (all.map fun _ => 2) ++ all.map fun _ => 2 by
        rw [List.map_const', two_mul, List.replicate_add]]
      refine ravel_lt ?_
      exact List.rel_append (forall2_map fun q _ => hx q) (forall2_map fun q _ => hy q)
    · intro h k hk
      rw [s1] at hk
      obtain ⟨x, y, hx, hy, he⟩ := exists_bits2 nall hk
      have := h x y hx hy
      rw [← v1 x y (fun q _ => hx q) fun q _ => hy q, ← v2 x y (fun q _ => hx q) fun q _ => hy q] at this
      unfold NDArray.get at this
      rw [s1, s2, he] at this
      exact this

/-- The test without matrices only compares the qubits. -/
theorem commute_false {A B : Gate Q K} (hA : IsGate A) (hB : IsGate B) :
    commute false A B = .ok (decide (∀ q ∈ A.2, q ∉ B.2)) := by
  unfold commute
  rw [(isValidGate_iff A).2 hA, (isValidGate_iff B).2 hB]
  simp only [Bool.not_true, Bool.false_eq_true, if_false]
  by_cases h : A.2.filter (· ∈ B.2) = []
  · rw [if_pos h]
    rw [List.filter_eq_nil_iff] at h
    simp only [decide_eq_true_eq] at h
    rw [decide_eq_true h]
  · rw [if_neg h]
    rw [List.filter_eq_nil_iff] at h
    simp only [decide_eq_true_eq] at h
    rw [decide_eq_false h]
    rfl

/-- A positive answer is sound in both modes. -/
theorem commute_sound {u : Bool} {A B : Gate Q K} (hA : IsGate A) (hB : IsGate B) (h : commute u A B = .ok true) : OpsCommute A B := by
  obtain ⟨r, h1, h2⟩ := commute_true hA hB
  cases u with
  | true =>
    rw [h1] at h
    simp only [Except.ok.injEq] at h
    exact h2.1 h
  | false =>
    rw [commute_false hA hB] at h
    simp only [Except.ok.injEq, decide_eq_true_eq] at h
    refine h2.1 ?_
    unfold commute at h1
    rw [(isValidGate_iff A).2 hA, (isValidGate_iff B).2 hB] at h1
    simp only [Bool.not_true, Bool.false_eq_true, if_false] at h1
    rw [if_pos] at h1
    · simpa using h1.symm
    · rw [List.filter_eq_nil_iff]
      simpa using h

theorem commute_ok {u : Bool} {A B : Gate Q K} (hA : IsGate A) (hB : IsGate B) : ∃ r, commute u A B = .ok r := by
  cases u with
  | true => obtain ⟨r, h, -⟩ := commute_true hA hB; exact ⟨r, h⟩
  | false => exact ⟨_, commute_false hA hB⟩

end TNCO
