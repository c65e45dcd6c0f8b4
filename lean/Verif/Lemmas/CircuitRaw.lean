import Verif.Lemmas.CircuitNet
import Verif.Lemmas.GateState
import Verif.Lemmas.Unique
import Verif.Lemmas.ContractIn

/-! The value of the network of a circuit. -/

namespace TNCO
variable {Q K : Type} [DecidableEq Q] [Field K]

theorem relabel_inj (c : Q → ℕ) : Function.Injective (relabel c) := by
  rintro ⟨q, j⟩ ⟨q', j'⟩ h
  unfold relabel at h
  simp only at h
  by_cases h1 : j = 0 <;> by_cases h2 : j' = 0 <;> by_cases h3 : j = c q <;> by_cases h4 : j' = c q' <;>
    simp [h1, h2, h3, h4] at h <;> grind

theorem relabel_zero (c : Q → ℕ) (q : Q) : relabel c (q, 0) = (q, .i) := by simp [relabel]

theorem relabel_last {c : Q → ℕ} {q : Q} (h : c q ≠ 0) : relabel c (q, c q) = (q, .f) := by simp [relabel, h]

/-- Every index between the first and the last one occurs. -/
theorem mem_buildTs {gates : List (Gate Q K)} (hg : ∀ g ∈ gates, IsGate g) {c : Q → ℕ} {q : Q} {j : ℕ} (hq : q ∈ gates.flatMap Prod.snd)
    (h1 : c q ≤ j) (h2 : j ≤ finalCount gates c q) : ∃ t ∈ buildTs gates c, (q, j) ∈ t.2 := by
  induction gates generalizing c with
  | nil => simp at hq
  | cons g rest ih =>
    have hn := (hg g (by simp)).nodup
    have hb : bump c g q = c q + if q ∈ g.2 then 1 else 0 := by unfold bump; rw [count_le_one hn]
    rw [← finalCount_cons] at h2
    unfold buildTs
    rw [List.flatMap_cons, List.mem_append] at hq
    by_cases hqg : q ∈ g.2
    · rw [if_pos hqg] at hb
      by_cases hj : j ≤ c q + 1
      · refine ⟨_, List.mem_cons_self, ?_⟩
        unfold gateTensor
        simp only [List.mem_append, List.mem_map, Prod.mk.injEq]
        rcases Nat.lt_or_ge (c q) j with h | h
        · exact Or.inl ⟨q, hqg, rfl, by omega⟩
        · exact Or.inr ⟨q, hqg, rfl, by omega⟩
      · have hq2 : q ∈ rest.flatMap Prod.snd := by
          by_contra hno
          unfold finalCount at h2
          rw [List.count_eq_zero_of_not_mem hno] at h2
          omega
        obtain ⟨t, ht, h⟩ := ih (fun k hk => hg k (by simp [hk])) hq2 (by omega) h2
        exact ⟨t, by simp [ht], h⟩
    · rw [if_neg hqg] at hb
      obtain ⟨t, ht, h⟩ := ih (fun k hk => hg k (by simp [hk])) (hq.resolve_left hqg) (by omega) h2
      exact ⟨t, by simp [ht], h⟩

/-- A function of an assignment that only reads the given qubits. -/
def LocalOn (qubits : List Q) (F : (Q → ℕ) → K) : Prop := ∀ x x' : Q → ℕ, (∀ q ∈ qubits, x q = x' q) → F x = F x'

theorem applyGate_local {qubits : List Q} {g : Gate Q K} (hg : ∀ q ∈ g.2, q ∈ qubits) {ψ : (Q → ℕ) → K} (h : LocalOn qubits ψ) :
    LocalOn qubits (applyGate g ψ) := by
  intro x x' hx
  unfold applyGate
  refine sumOver_congr_base fun y y' h1 h2 h3 => ?_
  congr 1
  · exact entry_congr (fun q hq => hx q (hg q hq)) fun q hq => (h3 q hq).2
  · refine h _ _ fun q hq => ?_
    by_cases hqg : q ∈ g.2
    · exact (h3 q hqg).2
    · rw [h1 q hqg, h2 q hqg, hx q hq]

theorem runCircuit_local {qubits : List Q} {gates : List (Gate Q K)} (hg : ∀ g ∈ gates, ∀ q ∈ g.2, q ∈ qubits) {ψ : (Q → ℕ) → K}
    (h : LocalOn qubits ψ) : LocalOn qubits (runCircuit gates ψ) := by
  induction gates generalizing ψ with
  | nil => exact h
  | cons g rest ih => exact ih (fun k hk => hg k (by simp [hk])) (applyGate_local (hg g (by simp)) h)

theorem productState_local (qubits : List Q) (v : Q → Option (ℕ → K)) (x0 : Q → ℕ) : LocalOn qubits (productState qubits v x0) := by
  intro x x' h
  unfold productState
  congr 1
  refine List.map_congr_left fun q hq => ?_
  rw [h q hq]

/-- A product state, with the open qubits apart. -/
theorem productState_split {qubits S : List Q} (hq : qubits.Nodup) (hS : S.Nodup) {v : Q → Option (ℕ → K)}
    (hmem : ∀ q, q ∈ S ↔ q ∈ qubits ∧ (v q).isSome) (x0 x : Q → ℕ) :
    productState qubits v x0 x = if ∀ q ∈ qubits.filter (· ∉ S), x q = x0 q then (S.map fun q => ((v q).getD fun _ => 0) (x q)).prod else 0 := by
  have hp : qubits.Perm (S ++ qubits.filter (· ∉ S)) := by
    refine perm_of_mem hq (hS.append (hq.filter _) ?_) fun q => ?_
    · intro q h1 h2
      rw [List.mem_filter, decide_eq_true_eq] at h2
      exact h2.2 h1
    · rw [List.mem_append, List.mem_filter, decide_eq_true_eq, hmem]
      tauto
  unfold productState
  rw [(hp.map _).prod_eq, List.map_append, List.prod_append]
  have e1 : (S.map fun q => factorAt (v q) (x0 q) (x q)) = S.map fun q => ((v q).getD fun _ => 0) (x q) := by
    refine List.map_congr_left fun q hqS => ?_
    have := ((hmem q).1 hqS).2
    cases h : v q with
    | none => rw [h] at this; simp at this
    | some a => rfl
  have e2 : ((qubits.filter (· ∉ S)).map fun q => factorAt (v q) (x0 q) (x q)) = (qubits.filter (· ∉ S)).map fun q => if x q = x0 q then (1 : K) else 0 := by
    refine List.map_congr_left fun q hqS => ?_
    rw [List.mem_filter, decide_eq_true_eq, hmem] at hqS
    cases h : v q with
    | none => rfl
    | some a => exact absurd ⟨hqS.1, by rw [h]; rfl⟩ hqS.2
  rw [e1, e2]
  split
  · rename_i h
    rw [List.prod_eq_one (l := (qubits.filter (· ∉ S)).map _), mul_one]
    intro y hy
    obtain ⟨q, hq', rfl⟩ := List.mem_map.1 hy
    rw [if_pos (h q hq')]
  · rename_i h
    push Not at h
    obtain ⟨q, hq', hne⟩ := h
    rw [List.prod_eq_zero (l := (qubits.filter (· ∉ S)).map _), mul_zero]
    exact List.mem_map.2 ⟨q, hq', by rw [if_neg hne]⟩

/-- A sum where some indices are fixed by a condition. -/
theorem sumOver_fixed {ι : Type} [DecidableEq ι] {d : ι → ℕ} {B P O : List ι} (hB : B.Nodup) (hp : B.Perm (P ++ O)) (G : (ι → ℕ) → K) (k0 : ι → ℕ)
    (h0 : ∀ x ∈ O, k0 x < d x) :
    sumOver d B (fun k => if ∀ x ∈ O, k x = k0 x then G k else 0) k0 = sumOver d P G k0 := by
  have hnd := hp.nodup_iff.1 hB
  rw [sumOver_perm hp hB, sumOver_append]
  refine sumOver_congr fun k h1 _ => ?_
  rw [sumOver_pick (List.nodup_append.1 hnd).2.1 G k k0 h0]
  congr 1
  funext x
  by_cases hx : x ∈ O
  · rw [over_mem hx, h1 x fun hP => (List.nodup_append.1 hnd).2.2 x hP x hx rfl]
  · rw [over_not hx]

variable [StarRing K]

def starArray (a : NDArray K) : NDArray K := ⟨a.shape, fun k => star (a.data k)⟩

/-- The tensors of gates and states. -/
def rawTs (gates : List (Gate Q K)) (Si : List Q) (ai : Q → NDArray K) (Sf : List Q) (af : Q → NDArray K) : List (NDArray K × List (Q × Stage)) :=
  ((buildTs gates fun _ => 0).map fun t => (t.1, t.2.map (relabel (finalCount gates fun _ => 0)))) ++
    (Si.map (fun q => (ai q, [(q, Stage.i)])) ++ Sf.map fun q => (starArray (af q), [(q, Stage.f)]))

/-- The vectors of the qubits in `S`. -/
structure StateArrays (qubits S : List Q) (v : Q → Option (ℕ → K)) (arr : Q → NDArray K) : Prop where
  nodup : S.Nodup
  mem : ∀ q, q ∈ S ↔ q ∈ qubits ∧ (v q).isSome
  get : ∀ q ∈ S, (arr q).shape = [2] ∧ ∀ u, v q = some u → ∀ k, (arr q).get [k] = u k

theorem mem_openQubits {qubits Si Sf : List Q} {q : Q} {t : Stage} :
    (q, t) ∈ openQubits qubits ((Si.map fun q => (q, Stage.i)) ++ Sf.map fun q => (q, Stage.f)) ↔
      q ∈ qubits ∧ ((t = .i ∧ q ∉ Si) ∨ (t = .f ∧ q ∉ Sf)) := by
  unfold openQubits
  simp only [List.mem_filter, List.mem_flatMap, List.mem_cons, List.not_mem_nil, or_false, Prod.mk.injEq, List.mem_append, List.mem_map,
    decide_eq_true_eq, not_or]
  constructor
  · rintro ⟨⟨p, hp, ⟨rfl, rfl⟩ | ⟨rfl, rfl⟩⟩, h1, h2⟩
    · exact ⟨hp, Or.inl ⟨rfl, fun h => h1 ⟨q, h, rfl, rfl⟩⟩⟩
    · exact ⟨hp, Or.inr ⟨rfl, fun h => h2 ⟨q, h, rfl, rfl⟩⟩⟩
  · rintro ⟨hp, ⟨rfl, h⟩ | ⟨rfl, h⟩⟩
    · exact ⟨⟨q, hp, Or.inl ⟨rfl, rfl⟩⟩, fun ⟨p, h1, h2, _⟩ => h (h2 ▸ h1), fun ⟨p, h1, h2, h3⟩ => (by cases h3)⟩
    · exact ⟨⟨q, hp, Or.inr ⟨rfl, rfl⟩⟩, fun ⟨p, h1, h2, h3⟩ => (by cases h3), fun ⟨p, h1, h2, _⟩ => h (h2 ▸ h1)⟩

theorem finalCount_pos {gates : List (Gate Q K)} {q : Q} (h : q ∈ gates.flatMap Prod.snd) : finalCount gates (fun _ => 0) q ≠ 0 := by
  unfold finalCount
  have := List.count_pos_iff.2 h
  omega

theorem mem_rawTs {gates : List (Gate Q K)} (hg : ∀ g ∈ gates, IsGate g) {qubits Si Sf : List Q} (hq : ∀ q, q ∈ qubits ↔ q ∈ gates.flatMap Prod.snd)
    (hSi : ∀ q ∈ Si, q ∈ qubits) (hSf : ∀ q ∈ Sf, q ∈ qubits) (ai af : Q → NDArray K) {x : Q × Stage} :
    x ∈ ((rawTs gates Si ai Sf af).map Prod.snd).flatten ↔
      ∃ q j, q ∈ qubits ∧ j ≤ finalCount gates (fun _ => 0) q ∧ x = relabel (finalCount gates fun _ => 0) (q, j) := by
  have hf : ∀ q ∈ qubits, ∃ q' j, q' ∈ qubits ∧ j ≤ finalCount gates (fun _ => 0) q' ∧ (q, Stage.f) = relabel (finalCount gates fun _ => 0) (q', j) :=
    fun q h => ⟨q, _, h, le_rfl, (relabel_last (finalCount_pos ((hq q).1 h))).symm⟩
  have hi : ∀ q ∈ qubits, ∃ q' j, q' ∈ qubits ∧ j ≤ finalCount gates (fun _ => 0) q' ∧ (q, Stage.i) = relabel (finalCount gates fun _ => 0) (q', j) :=
    fun q h => ⟨q, 0, h, Nat.zero_le _, (relabel_zero _ q).symm⟩
  unfold rawTs
  rw [List.mem_flatten]
  constructor
  · rintro ⟨xs, hxs, hx⟩
    obtain ⟨t, ht, rfl⟩ := List.mem_map.1 hxs
    rcases List.mem_append.1 ht with ht | ht
    · obtain ⟨t', ht', rfl⟩ := List.mem_map.1 ht
      obtain ⟨⟨q, j⟩, hqj, rfl⟩ := List.mem_map.1 hx
      obtain ⟨-, h2, h3⟩ := buildTs_inds hg ht' hqj
      exact ⟨q, j, (hq q).2 h3, h2, rfl⟩
    · rcases List.mem_append.1 ht with ht | ht
      · obtain ⟨q, hq', rfl⟩ := List.mem_map.1 ht
        rw [List.mem_singleton.1 hx]
        exact hi q (hSi q hq')
      · obtain ⟨q, hq', rfl⟩ := List.mem_map.1 ht
        rw [List.mem_singleton.1 hx]
        exact hf q (hSf q hq')
  · rintro ⟨q, j, h1, h2, rfl⟩
    obtain ⟨t, ht, h3⟩ := mem_buildTs hg ((hq q).1 h1) (Nat.zero_le j) h2
    refine ⟨_, List.mem_map.2 ⟨_, List.mem_append.2 (Or.inl (List.mem_map.2 ⟨t, ht, rfl⟩)), rfl⟩, List.mem_map.2 ⟨_, h3, rfl⟩⟩

theorem raw_value {gates : List (Gate Q K)} (hg : ∀ g ∈ gates, IsGate g) {qubits Si Sf : List Q} (hqn : qubits.Nodup)
    (hq : ∀ q, q ∈ qubits ↔ q ∈ gates.flatMap Prod.snd) {v w : Q → Option (ℕ → K)} {ai af : Q → NDArray K} (hi : StateArrays qubits Si v ai)
    (hf : StateArrays qubits Sf w af) {l : List (Q × Stage)} (nl : l.Nodup)
    (hl : ∀ x, x ∈ l ↔ x ∈ ((rawTs gates Si ai Sf af).map Prod.snd).flatten ∧
      x ∉ openQubits qubits ((Si.map fun q => (q, Stage.i)) ++ Sf.map fun q => (q, Stage.f)))
    {f : Q × Stage → ℕ} (hfb : ∀ x ∈ openQubits qubits ((Si.map fun q => (q, Stage.i)) ++ Sf.map fun q => (q, Stage.f)), f x < 2) :
    sumOver (fun _ => 2) l (fun k => ((rawTs gates Si ai Sf af).map fun t => t.1.get (t.2.map k)).prod) f =
      amplitude gates qubits v w (fun q => f (q, .i)) fun q => f (q, .f) := by
  set c := finalCount gates fun _ => 0 with hc
  set e := relabel c with he
  have einj : Function.Injective e := relabel_inj c
  have e0 : ∀ q, e (q, 0) = (q, .i) := relabel_zero c
  have ec : ∀ q ∈ qubits, e (q, c q) = (q, .f) := fun q h => relabel_last (finalCount_pos ((hq q).1 h))
  have cpos : ∀ q ∈ qubits, c q ≠ 0 := fun q h => finalCount_pos ((hq q).1 h)
  have hSi : ∀ q ∈ Si, q ∈ qubits := fun q h => ((hi.mem q).1 h).1
  have hSf : ∀ q ∈ Sf, q ∈ qubits := fun q h => ((hf.mem q).1 h).1
  set B := buildInds gates fun _ => 0 with hB
  have nB : B.Nodup := buildInds_nodup hg _
  have mB : ∀ q j, (q, j) ∈ B ↔ j < c q := fun q j => by rw [hB, mem_buildInds hg]; simp [hc]
  have touched : ∀ q j, j < c q → q ∈ qubits := by
    intro q j h
    rw [hq]
    by_contra hno
    rw [hc] at h
    unfold finalCount at h
    rw [List.count_eq_zero_of_not_mem hno] at h
    simp at h
  set L1 := B.filter fun x => ¬ (x.2 = 0 ∧ x.1 ∉ Si) with hL1
  set O1 := B.filter fun x => x.2 = 0 ∧ x.1 ∉ Si with hO1
  have mL1 : ∀ q j, (q, j) ∈ L1 ↔ j < c q ∧ ¬ (j = 0 ∧ q ∉ Si) := fun q j => by rw [hL1, List.mem_filter, mB, decide_eq_true_eq]
  have mO1 : ∀ q j, (q, j) ∈ O1 ↔ j < c q ∧ (j = 0 ∧ q ∉ Si) := fun q j => by rw [hO1, List.mem_filter, mB, decide_eq_true_eq]
  have pB : B.Perm (L1 ++ O1) := by
    refine perm_of_mem nB ((nB.filter _).append (nB.filter _) ?_) ?_
    · rintro ⟨q, j⟩ h1 h2
      exact ((mL1 q j).1 h1).2 ((mO1 q j).1 h2).2
    · rintro ⟨q, j⟩
      rw [List.mem_append, mB, mL1, mO1]
      by_cases h : j = 0 ∧ q ∉ Si <;> simp [h]
  set A := Sf.map fun q => (q, Stage.f) with hA
  have pl : l.Perm (A ++ L1.map e) := by
    refine perm_of_mem nl (List.Nodup.append (hf.nodup.map (inj_pair _)) ((nB.filter _).map einj) ?_) ?_
    · intro x h1 h2
      obtain ⟨q, hq1, rfl⟩ := List.mem_map.1 h1
      obtain ⟨⟨q', j⟩, hj, hee⟩ := List.mem_map.1 h2
      rw [← ec q (hSf q hq1)] at hee
      have := einj hee
      simp only [Prod.mk.injEq] at this
      obtain ⟨rfl, rfl⟩ := this
      have := ((mL1 _ _).1 hj).1
      omega
    · intro x
      rw [hl, mem_rawTs hg hq hSi hSf, List.mem_append, ← hc]
      constructor
      · rintro ⟨⟨q, j, h1, h2, rfl⟩, h3⟩
        by_cases hj : j = c q
        · left
          rw [hj] at h3 ⊢
          have h4 : relabel c (q, c q) = (q, .f) := ec q h1
          rw [h4, mem_openQubits] at h3
          rw [h4]
          refine List.mem_map.2 ⟨q, ?_, rfl⟩
          by_contra hno
          exact h3 ⟨h1, Or.inr ⟨rfl, hno⟩⟩
        · right
          refine List.mem_map.2 ⟨(q, j), (mL1 q j).2 ⟨by omega, ?_⟩, rfl⟩
          rintro ⟨rfl, h4⟩
          apply h3
          have h5 : relabel c (q, 0) = (q, .i) := e0 q
          rw [h5, mem_openQubits]
          exact ⟨h1, Or.inl ⟨rfl, h4⟩⟩
      · rintro (h | h)
        · obtain ⟨q, hq1, rfl⟩ := List.mem_map.1 h
          refine ⟨⟨q, c q, hSf q hq1, le_rfl, (ec q (hSf q hq1)).symm⟩, ?_⟩
          rw [mem_openQubits]
          rintro ⟨-, ⟨h1, -⟩ | ⟨-, h1⟩⟩
          · cases h1
          · exact h1 hq1
        · obtain ⟨⟨q, j⟩, hj, rfl⟩ := List.mem_map.1 h
          obtain ⟨h1, h2⟩ := (mL1 q j).1 hj
          refine ⟨⟨q, j, touched q j h1, by omega, rfl⟩, ?_⟩
          by_cases hj0 : j = 0
          · subst hj0
            rw [e0, mem_openQubits]
            rintro ⟨-, ⟨-, h3⟩ | ⟨h3, -⟩⟩
            · exact h2 ⟨rfl, h3⟩
            · cases h3
          · have : e (q, j) = (q, .num j) := by rw [he]; unfold relabel; simp only; rw [if_neg hj0, if_neg (Nat.ne_of_lt h1)]
            rw [this, mem_openQubits]
            rintro ⟨-, ⟨h3, -⟩ | ⟨h3, -⟩⟩ <;> cases h3
  rw [sumOver_perm pl nl, sumOver_append]
  set x0 : Q → ℕ := fun q => f (q, .i) with hx0
  set x1 : Q → ℕ := fun q => f (q, .f) with hx1
  set ψ0 := productState qubits v x0 with hψ0
  have hlocal : LocalOn qubits (runCircuit gates ψ0) := by
    refine runCircuit_local (fun g hgm q hqg => ?_) (productState_local _ _ _)
    rw [hq]
    exact List.mem_flatMap.2 ⟨g, hgm, hqg⟩
  set PG : (Q × ℕ → ℕ) → K := fun k => ((buildTs gates fun _ => 0).map fun t => t.1.get (t.2.map k)).prod with hPG
  set PS : (Q × Stage → ℕ) → K := fun k => (Sf.map fun q => star (((w q).getD fun _ => 0) (k (q, .f)))).prod with hPS
  have hF : ∀ k : Q × Stage → ℕ, ((rawTs gates Si ai Sf af).map fun t => t.1.get (t.2.map k)).prod =
      PG (fun x => k (e x)) * (Si.map fun q => ((v q).getD fun _ => 0) (k (e (q, 0)))).prod * PS k := by
    intro k
    unfold rawTs
    simp only [List.map_append, List.prod_append, List.map_map, Function.comp_def]
    rw [← mul_assoc]
    congr 1
    · congr 1
      congr 1
      refine List.map_congr_left fun q hqS => ?_
      obtain ⟨h1, h2⟩ := hi.get q hqS
      cases hv : v q with
      | none => have := ((hi.mem q).1 hqS).2; rw [hv] at this; simp at this
      | some u => rw [e0]; simp only [List.map_cons, List.map_nil, Option.getD_some]; exact h2 u hv _
    · rw [hPS]
      simp only
      congr 1
      refine List.map_congr_left fun q hqS => ?_
      obtain ⟨h1, h2⟩ := hf.get q hqS
      cases hv : w q with
      | none => have := ((hf.mem q).1 hqS).2; rw [hv] at this; simp at this
      | some u =>
        simp only [List.map_cons, List.map_nil, Option.getD_some]
        rw [← h2 u hv]
        rfl
  have inner : ∀ k : Q × Stage → ℕ, (∀ x, x ∉ A → k x = f x) →
      sumOver (fun _ => 2) (L1.map e) (fun k => ((rawTs gates Si ai Sf af).map fun t => t.1.get (t.2.map k)).prod) k =
        runCircuit gates ψ0 (fun q => k (q, .f)) * PS k := by
    intro k hk
    have e1 : sumOver (fun _ => 2) (L1.map e) (fun k => ((rawTs gates Si ai Sf af).map fun t => t.1.get (t.2.map k)).prod) k =
        sumOver (fun _ => 2) (L1.map e)
          (fun k => (PG (fun x => k (e x)) * (Si.map fun q => ((v q).getD fun _ => 0) (k (e (q, 0)))).prod) * PS k) k :=
      sumOver_congr fun k' _ _ => hF k'
    rw [e1, sumOver_mul_right]
    swap
    · intro k' hk'
      rw [hPS]
      simp only
      congr 1
      refine List.map_congr_left fun q hqS => ?_
      rw [hk' (q, .f)]
      intro hm
      obtain ⟨⟨q', j⟩, hj, hee⟩ := List.mem_map.1 hm
      rw [← ec q (hSf q hqS)] at hee
      have := einj hee
      simp only [Prod.mk.injEq] at this
      obtain ⟨rfl, rfl⟩ := this
      have := ((mL1 _ _).1 hj).1
      omega
    congr 1
    rw [sumOver_map (e := e) einj (Φ := fun k => PG k * (Si.map fun q => ((v q).getD fun _ => 0) (k (q, 0))).prod) fun k' _ _ => rfl]
    have hki : ∀ q, k (q, .i) = x0 q := by
      intro q
      rw [hx0]
      refine hk _ fun hm => ?_
      obtain ⟨p, -, h⟩ := List.mem_map.1 hm
      simp at h
    rw [← sumOver_fixed (d := fun _ => 2) nB pB]
    swap
    · rintro ⟨q, j⟩ hj
      obtain ⟨h1, rfl, h3⟩ := (mO1 q j).1 hj
      rw [e0, hki]
      exact hfb _ (mem_openQubits.2 ⟨touched q 0 h1, Or.inl ⟨rfl, h3⟩⟩)
    have e2 := build_value hg (fun _ => 0) ψ0 fun x => k (e x)
    rw [← hB] at e2
    have e3 : runCircuit gates ψ0 (fun q => k (e (q, c q))) = runCircuit gates ψ0 fun q => k (q, .f) :=
      hlocal _ _ fun q h => by rw [ec q h]
    rw [← e3, ← e2]
    refine sumOver_congr fun kk _ _ => ?_
    rw [hψ0, productState_split hqn hi.nodup hi.mem]
    have hiff : (∀ x ∈ O1, kk x = k (e x)) ↔ ∀ q ∈ qubits.filter (· ∉ Si), kk (q, 0) = x0 q := by
      constructor
      · intro h q hqf
        rw [List.mem_filter, decide_eq_true_eq] at hqf
        have := h (q, 0) ((mO1 q 0).2 ⟨Nat.pos_of_ne_zero (cpos q hqf.1), rfl, hqf.2⟩)
        rw [e0, hki] at this
        exact this
      · rintro h ⟨q, j⟩ hj
        obtain ⟨h1, rfl, h3⟩ := (mO1 q j).1 hj
        rw [e0, hki]
        exact h q (List.mem_filter.2 ⟨touched q 0 h1, by simpa using h3⟩)
    simp only [hiff]
    split
    · rw [mul_comm]
    · rw [zero_mul]
  rw [sumOver_congr fun k h1 _ => inner k h1]
  rw [hA, sumOver_map (e := fun q => (q, Stage.f)) (inj_pair _)
    (Φ := fun x => runCircuit gates ψ0 x * (Sf.map fun q => star (((w q).getD fun _ => 0) (x q))).prod) fun k' _ _ => rfl]
  unfold amplitude
  have mem' : ∀ q, q ∈ Sf ↔ q ∈ qubits ∧ ((w q).map fun b k => star (b k)).isSome := fun q => by rw [hf.mem, Option.isSome_map]
  have pq : qubits.Perm (Sf ++ qubits.filter (· ∉ Sf)) := by
    refine perm_of_mem hqn (hf.nodup.append (hqn.filter _) ?_) fun q => ?_
    · intro q h1 h2
      rw [List.mem_filter, decide_eq_true_eq] at h2
      exact h2.2 h1
    · rw [List.mem_append, List.mem_filter, decide_eq_true_eq]
      constructor
      · intro h; by_cases h' : q ∈ Sf
        · exact Or.inl h'
        · exact Or.inr ⟨h, h'⟩
      · rintro (h | h)
        · exact hSf q h
        · exact h.1
  rw [← sumOver_fixed (d := fun _ => 2) hqn pq]
  swap
  · intro q hqf
    rw [List.mem_filter, decide_eq_true_eq] at hqf
    exact hfb _ (mem_openQubits.2 ⟨hqf.1, Or.inr ⟨rfl, hqf.2⟩⟩)
  refine sumOver_congr_base fun x x' _ _ hxx => ?_
  have hloc : runCircuit gates ψ0 x = runCircuit gates ψ0 x' := hlocal _ _ fun q h => (hxx q h).2
  rw [productState_split hqn hf.nodup mem', ← hloc]
  have hiff : (∀ q ∈ qubits.filter (· ∉ Sf), x q = f (q, .f)) ↔ ∀ q ∈ qubits.filter (· ∉ Sf), x' q = x1 q := by
    refine forall_congr' fun q => forall_congr' fun hqf => ?_
    rw [(hxx q (List.mem_filter.1 hqf).1).2]
  by_cases hcd : ∀ q ∈ qubits.filter (· ∉ Sf), x q = f (q, .f)
  · rw [if_pos hcd, if_pos (hiff.1 hcd), mul_comm]
    congr 1
    congr 1
    refine List.map_congr_left fun q hqS => ?_
    rw [(hxx q (hSf q hqS)).2]
    cases hw : w q with
    | none => have := ((hf.mem q).1 hqS).2; rw [hw] at this; simp at this
    | some u => rfl
  · rw [if_neg hcd, if_neg fun h => hcd (hiff.2 h), zero_mul]

end TNCO
