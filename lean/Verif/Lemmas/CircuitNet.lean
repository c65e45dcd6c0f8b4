import Verif.Model.CircuitLoad
import Verif.Lemmas.Commute

/-! The tensors of the gates of a circuit. -/

namespace TNCO
variable {Q K : Type} [DecidableEq Q] [Field K]

/-- The counters after one gate. -/
def bump (c : Q → ℕ) (g : Gate Q K) : Q → ℕ := fun q => c q + g.2.count q

/-- The counters after the gates. -/
def finalCount (gates : List (Gate Q K)) (c : Q → ℕ) (q : Q) : ℕ := c q + (gates.flatMap Prod.snd).count q

/-- The tensor of a gate. -/
def gateTensor (g : Gate Q K) (c : Q → ℕ) : NDArray K × List (Q × ℕ) :=
  (⟨List.replicate (2 * g.2.length) 2, g.1.data⟩, (g.2.map fun q => (q, c q + 1)) ++ g.2.map fun q => (q, c q))

def buildTs : List (Gate Q K) → (Q → ℕ) → List (NDArray K × List (Q × ℕ))
  | [], _ => []
  | g :: rest, c => gateTensor g c :: buildTs rest (bump c g)

/-- The inputs of all gates. -/
def buildInds : List (Gate Q K) → (Q → ℕ) → List (Q × ℕ)
  | [], _ => []
  | g :: rest, c => buildInds rest (bump c g) ++ g.2.map fun q => (q, c q)

theorem finalCount_cons (g : Gate Q K) (rest : List (Gate Q K)) (c : Q → ℕ) : finalCount rest (bump c g) = finalCount (g :: rest) c := by
  funext q
  unfold finalCount bump
  rw [List.flatMap_cons, List.count_append, Nat.add_assoc]

theorem buildLoop_ok {gates : List (Gate Q K)} (hg : ∀ g ∈ gates, IsGate g) (c : Q → ℕ) :
    buildLoop gates c = .ok (buildTs gates c, finalCount gates c) := by
  induction gates generalizing c with
  | nil => unfold buildLoop buildTs finalCount; simp
  | cons g rest ih =>
    unfold buildLoop
    have hr := hg g (by simp)
    have : g.1.reshape (List.replicate (2 * g.2.length) 2) = .ok ⟨List.replicate (2 * g.2.length) 2, g.1.data⟩ := by
      unfold NDArray.reshape
      rw [if_neg]
      rw [hr.shape, List.prod_replicate, two_mul, pow_add]
      simp
    rw [this]
    have := ih (fun k hk => hg k (by simp [hk])) (bump c g)
    rw [finalCount_cons] at this
    unfold bump at this
    simp only [this]
    rfl

theorem count_le_one {l : List Q} (h : l.Nodup) (q : Q) : l.count q = if q ∈ l then 1 else 0 := by
  split
  · exact List.count_eq_one_of_mem h ‹_›
  · exact List.count_eq_zero_of_not_mem ‹_›

theorem mem_buildInds {gates : List (Gate Q K)} (hg : ∀ g ∈ gates, IsGate g) {c : Q → ℕ} {q : Q} {j : ℕ} :
    (q, j) ∈ buildInds gates c ↔ c q ≤ j ∧ j < finalCount gates c q := by
  induction gates generalizing c with
  | nil => unfold buildInds finalCount; simp
  | cons g rest ih =>
    have hn := (hg g (by simp)).nodup
    unfold buildInds
    rw [List.mem_append, ih fun k hk => hg k (by simp [hk]), finalCount_cons]
    have hb : bump c g q = c q + if q ∈ g.2 then 1 else 0 := by unfold bump; rw [count_le_one hn]
    have hfin : finalCount (g :: rest) c q ≥ bump c g q := by
      rw [← finalCount_cons]; unfold finalCount; exact Nat.le_add_right _ _
    have hm : (q, j) ∈ g.2.map (fun q => (q, c q)) ↔ q ∈ g.2 ∧ j = c q := by
      rw [List.mem_map]
      constructor
      · rintro ⟨p, hp, he⟩
        simp only [Prod.mk.injEq] at he
        obtain ⟨rfl, rfl⟩ := he
        exact ⟨hp, rfl⟩
      · rintro ⟨h1, rfl⟩; exact ⟨q, h1, rfl⟩
    rw [hm, hb]
    rw [hb] at hfin
    by_cases hq : q ∈ g.2
    · rw [if_pos hq] at hfin ⊢; simp only [hq, true_and]; omega
    · rw [if_neg hq] at hfin ⊢; simp only [hq, false_and, or_false]; omega

theorem inj_pair {α : Type} (t : Q → α) : Function.Injective fun q => (q, t q) := fun a b h => by
  simp only [Prod.mk.injEq] at h; exact h.1

theorem buildInds_nodup {gates : List (Gate Q K)} (hg : ∀ g ∈ gates, IsGate g) (c : Q → ℕ) : (buildInds gates c).Nodup := by
  induction gates generalizing c with
  | nil => unfold buildInds; exact List.nodup_nil
  | cons g rest ih =>
    have hn := (hg g (by simp)).nodup
    unfold buildInds
    refine List.Nodup.append (ih (fun k hk => hg k (by simp [hk])) _) (hn.map (inj_pair _)) ?_
    rintro ⟨q, j⟩ h1 h2
    rw [mem_buildInds fun k hk => hg k (by simp [hk])] at h1
    obtain ⟨p, hp, he⟩ := List.mem_map.1 h2
    simp only [Prod.mk.injEq] at he
    obtain ⟨rfl, rfl⟩ := he
    have : bump c g p = c p + 1 := by unfold bump; rw [count_le_one hn, if_pos hp]
    omega

theorem gateTensor_get {g : Gate Q K} (hg : IsGate g) (c : Q → ℕ) (k : Q × ℕ → ℕ) :
    (gateTensor g c).1.get ((gateTensor g c).2.map k) = entry g (fun q => k (q, c q + 1)) (fun q => k (q, c q)) := by
  unfold gateTensor
  simp only [List.map_append, List.map_map, Function.comp_def]
  exact entry_reshape (a := ⟨List.replicate (2 * g.2.length) 2, g.1.data⟩) hg rfl rfl

/-- Indices of the tensors of the gates. -/
theorem buildTs_inds {gates : List (Gate Q K)} (hg : ∀ g ∈ gates, IsGate g) {c : Q → ℕ} {t : NDArray K × List (Q × ℕ)} (ht : t ∈ buildTs gates c)
    {q : Q} {j : ℕ} (h : (q, j) ∈ t.2) : c q ≤ j ∧ j ≤ finalCount gates c q ∧ q ∈ gates.flatMap Prod.snd := by
  induction gates generalizing c with
  | nil => simp [buildTs] at ht
  | cons g rest ih =>
    have hn := (hg g (by simp)).nodup
    have hb : bump c g q = c q + if q ∈ g.2 then 1 else 0 := by unfold bump; rw [count_le_one hn]
    unfold buildTs at ht
    rw [List.flatMap_cons, List.mem_append]
    rcases List.mem_cons.1 ht with rfl | ht
    · have hfin : finalCount (g :: rest) c q ≥ bump c g q := by
        rw [← finalCount_cons]; unfold finalCount; exact Nat.le_add_right _ _
      unfold gateTensor at h
      simp only [List.mem_append, List.mem_map, Prod.mk.injEq] at h
      rcases h with ⟨p, hp, rfl, rfl⟩ | ⟨p, hp, rfl, rfl⟩
      · rw [hb, if_pos hp] at hfin; exact ⟨by omega, hfin, Or.inl hp⟩
      · rw [hb, if_pos hp] at hfin; exact ⟨by omega, by omega, Or.inl hp⟩
    · obtain ⟨h1, h2, h3⟩ := ih (fun k hk => hg k (by simp [hk])) ht
      rw [finalCount_cons] at h2
      refine ⟨by rw [hb] at h1; omega, h2, Or.inr h3⟩

/-- The tensors of the gates apply the gates. -/
theorem build_value {gates : List (Gate Q K)} (hg : ∀ g ∈ gates, IsGate g) (c : Q → ℕ) (F : (Q → ℕ) → K) (k0 : Q × ℕ → ℕ) :
    sumOver (fun _ => 2) (buildInds gates c) (fun k => F (fun q => k (q, c q)) * ((buildTs gates c).map fun t => t.1.get (t.2.map k)).prod) k0 =
      runCircuit gates F fun q => k0 (q, finalCount gates c q) := by
  induction gates generalizing c F k0 with
  | nil => unfold buildInds buildTs finalCount runCircuit; simp [sumOver]
  | cons g rest ih =>
    have hgg := hg g (by simp)
    have hn := hgg.nodup
    have hr : ∀ k ∈ rest, IsGate k := fun k hk => hg k (by simp [hk])
    have hb : ∀ q, bump c g q = c q + if q ∈ g.2 then 1 else 0 := fun q => by unfold bump; rw [count_le_one hn]
    have hrun : runCircuit (g :: rest) F = runCircuit rest (applyGate g F) := rfl
    rw [hrun, ← finalCount_cons, ← ih hr]
    rw [show buildInds (g :: rest) c = buildInds rest (bump c g) ++ g.2.map fun q => (q, c q) from rfl, sumOver_append]
    refine sumOver_congr (R := K) fun k _ _ => ?_
    set P : (Q × ℕ → ℕ) → K := fun k => ((buildTs rest (bump c g)).map fun t => t.1.get (t.2.map k)).prod with hP
    have e1 : sumOver (fun _ => 2) (g.2.map fun q => (q, c q))
        (fun k => F (fun q => k (q, c q)) * ((buildTs (g :: rest) c).map fun t => t.1.get (t.2.map k)).prod) k =
        sumOver (fun _ => 2) (g.2.map fun q => (q, c q))
          (fun k => (F (fun q => k (q, c q)) * (gateTensor g c).1.get ((gateTensor g c).2.map k)) * P k) k := by
      refine sumOver_congr fun k' _ _ => ?_
      unfold buildTs
      rw [List.map_cons, List.prod_cons, mul_assoc]
    rw [e1, sumOver_mul_right]
    swap
    · intro k' hk'
      rw [hP]
      simp only
      congr 1
      refine List.map_congr_left fun t ht => ?_
      congr 1
      refine List.map_congr_left fun x hx => hk' x ?_
      obtain ⟨q, j⟩ := x
      have := (buildTs_inds hr ht hx).1
      intro hm
      obtain ⟨p, hp, he⟩ := List.mem_map.1 hm
      simp only [Prod.mk.injEq] at he
      obtain ⟨rfl, rfl⟩ := he
      rw [hb, if_pos hp] at this
      omega
    congr 1
    rw [sumOver_map (e := fun q => (q, c q)) (inj_pair _) (Φ := fun y => entry g (fun q => k (q, bump c g q)) y * F y)]
    · unfold applyGate
      refine sumOver_eq_of_agree hn fun q hq => ?_
      rw [hb, if_neg hq, Nat.add_zero]
    · intro k' h1 h2
      rw [gateTensor_get hgg, mul_comm]
      congr 1
      refine entry_congr (fun q hq => ?_) fun _ _ => rfl
      rw [hb, if_pos hq]
      refine h1 _ fun hm => ?_
      obtain ⟨p, hp, he⟩ := List.mem_map.1 hm
      simp only [Prod.mk.injEq] at he
      obtain ⟨rfl, he⟩ := he
      omega

end TNCO
