import Verif.Lemmas.SameGate
import Mathlib.LinearAlgebra.Matrix.NonsingularInverse

/-! Cancelling gates. -/

namespace TNCO
variable {Q K : Type} [DecidableEq Q] [Field K] [StarRing K] [DecidableEq K]

omit [DecidableEq Q] [DecidableEq K] in
/-- The rows of a unitary gate are orthonormal as well. -/
theorem unitary_rows {g : Gate Q K} (hu : IsUnitary g) {r c : ℕ} (hr : r < 2 ^ g.2.length) (hc : c < 2 ^ g.2.length) :
    ∑ k ∈ Finset.range (2 ^ g.2.length), g.1.get [r, k] * star (g.1.get [c, k]) = if r = c then 1 else 0 := by
  set n := 2 ^ g.2.length with hn
  let M : Matrix (Fin n) (Fin n) K := fun i j => g.1.get [i, j]
  let N : Matrix (Fin n) (Fin n) K := fun i j => star (g.1.get [j, i])
  have h1 : N * M = 1 := by
    ext i j
    rw [Matrix.mul_apply, Matrix.one_apply]
    have := hu i i.2 j j.2
    rw [Finset.sum_range] at this
    rw [show (∑ k : Fin n, N i k * M k j) = _ from this]
    simp only [Fin.ext_iff]
  have h2 : M * N = 1 := mul_eq_one_comm.1 h1
  have h3 := congrFun (congrFun h2 ⟨r, hr⟩) ⟨c, hc⟩
  rw [Matrix.mul_apply, Matrix.one_apply] at h3
  rw [Finset.sum_range]
  rw [show (∑ k : Fin n, g.1.get [r, k] * star (g.1.get [c, k])) = _ from h3]
  simp only [Fin.mk.injEq]

omit [DecidableEq K] in
theorem prodKernel_adjoint {g adj : Gate Q K} (hg : IsGate g) (hu : IsUnitary g) (h2 : adj.2 = g.2)
    (he : ∀ x y, BitVals x → BitVals y → entry adj x y = star (entry g y x)) {x h : Q → ℕ} (hx : BitVals x) (hh : BitVals h) :
    prodKernel g adj g.2 x h = if ∀ q ∈ g.2, h q = x q then 1 else 0 := by
  unfold prodKernel
  have e1 : sumOver (fun _ => 2) g.2 (fun s => entry g x (over g.2 s h) * entry adj (over g.2 s x) h) (fun _ => 0) =
      sumOver (fun _ => 2) g.2 (fun s => g.1.get [binVal (g.2.map x), binVal (g.2.map s)] * star (g.1.get [binVal (g.2.map h), binVal (g.2.map s)]))
        fun _ => 0 := by
    refine sumOver_congr fun s _ hs => ?_
    have hb : BitVals (over g.2 s x) := fun q => by
      by_cases hq : q ∈ g.2
      · rw [over_mem hq]; exact hs q hq
      · rw [over_not hq]; exact hx q
    rw [he _ _ hb hh]
    congr 1
    · unfold entry
      congr 3
      congr 1
      exact List.map_congr_left fun q hq => over_mem hq
    · unfold entry
      congr 4
      congr 1
      exact List.map_congr_left fun q hq => over_mem hq
  rw [e1, ← sum_binVal hg.nodup (fun k => g.1.get [binVal (g.2.map x), k] * star (g.1.get [binVal (g.2.map h), k])),
    unitary_rows hu (binVal_lt fun q _ => hx q) (binVal_lt fun q _ => hh q)]
  have : binVal (g.2.map x) = binVal (g.2.map h) ↔ ∀ q ∈ g.2, h q = x q :=
    ⟨fun e q hq => (binVal_inj (fun q _ => hx q) (fun q _ => hh q) e q hq).symm, fun e => by rw [List.map_congr_left e]⟩
  simp only [this]

omit [DecidableEq K] in
/-- A unitary gate after its adjoint does nothing. -/
theorem apply_adjoint {g adj : Gate Q K} (hg : IsGate g) (hu : IsUnitary g) (h2 : adj.2 = g.2)
    (he : ∀ x y, BitVals x → BitVals y → entry adj x y = star (entry g y x)) (ψ : (Q → ℕ) → K) {x : Q → ℕ} (hx : BitVals x) :
    applyGate g (applyGate adj ψ) x = ψ x := by
  rw [applyGate_mul hg.nodup (h2 ▸ hg.nodup) (sh := g.2) (all := g.2) hg.nodup hg.nodup (by simp [h2]) (by simp [h2])]
  have := sumOver_pick (d := fun _ => 2) hg.nodup ψ x x fun q _ => hx q
  rw [show over g.2 x x = x from funext fun q => by unfold over; split <;> rfl] at this
  rw [← this]
  refine sumOver_congr fun y h1 h2' => ?_
  rw [prodKernel_adjoint hg hu h2 he hx (bits_of hx h1 h2')]
  split <;> simp

omit [DecidableEq K] in
theorem unitary_entry {g : Gate Q K} (hg : IsGate g) (hu : IsUnitary g) {y y' : Q → ℕ} (hy : BitVals y) (hy' : BitVals y') :
    sumOver (fun _ => 2) g.2 (fun x => star (entry g x y) * entry g x y') (fun _ => 0) = if ∀ q ∈ g.2, y q = y' q then 1 else 0 := by
  have := hu _ (binVal_lt fun q _ => hy q) _ (binVal_lt fun q _ => hy' q)
  rw [sum_binVal hg.nodup _ fun _ => 0] at this
  rw [show (sumOver (fun _ => 2) g.2 (fun x => star (entry g x y) * entry g x y') fun _ => 0) = _ from this]
  have : binVal (g.2.map y) = binVal (g.2.map y') ↔ ∀ q ∈ g.2, y q = y' q :=
    ⟨fun e q hq => binVal_inj (fun q _ => hy q) (fun q _ => hy' q) e q hq, fun e => by rw [List.map_congr_left e]⟩
  simp only [this]

omit [DecidableEq K] in
theorem unitary_ne_zero {g : Gate Q K} (hg : IsGate g) (hu : IsUnitary g) : ∃ x y, BitVals x ∧ BitVals y ∧ entry g x y ≠ 0 := by
  by_contra hno
  have h0 : BitVals (fun _ : Q => 0) := fun _ => by norm_num
  have := unitary_entry hg hu h0 h0
  rw [if_pos fun _ _ => rfl, sumOver_zero] at this
  · exact zero_ne_one this
  · intro x h1 h2
    by_contra hne
    exact hno ⟨x, _, bits_of h0 h1 h2, h0, fun e => hne (by rw [e, mul_zero])⟩

omit [DecidableEq K] in
/-- Two unitary gates that are proportional differ by a phase. -/
theorem phase_of_same {g h adj : Gate Q K} (hg : IsGate g) (hu : IsUnitary g) (hh : IsGate h) (hhu : IsUnitary h) (h2 : adj.2 = g.2)
    (he : ∀ x y, BitVals x → BitVals y → entry adj x y = star (entry g y x)) (hp : h.2.Perm adj.2) {c : K}
    (hc : ∀ x y, BitVals x → BitVals y → entry h x y = c * entry adj x y) : star c * c = 1 := by
  have h0 : BitVals (fun _ : Q => 0) := fun _ => by norm_num
  have e1 := unitary_entry hh hhu h0 h0
  rw [if_pos fun _ _ => rfl, sumOver_perm hp hh.nodup, h2] at e1
  have e2 := unitary_rows hu (binVal_lt (l := g.2) fun q _ => h0 q) (binVal_lt (l := g.2) fun q _ => h0 q)
  rw [if_pos rfl, sum_binVal hg.nodup _ fun _ => 0] at e2
  have e3 : sumOver (fun _ => 2) g.2 (fun x => star (entry h x fun _ => 0) * entry h x fun _ => 0) (fun _ => 0) =
      star c * c * sumOver (fun _ => 2) g.2 (fun x => g.1.get [binVal (g.2.map fun _ => 0), binVal (g.2.map x)] *
        star (g.1.get [binVal (g.2.map fun _ => 0), binVal (g.2.map x)])) fun _ => 0 := by
    rw [← sumOver_mul_left (fun _ => star c * c) _ fun _ _ => rfl]
    refine sumOver_congr fun x h1 h3 => ?_
    have hx := bits_of h0 h1 h3
    rw [hc x _ hx h0, he x _ hx h0]
    unfold entry
    rw [star_mul, star_star]
    ring
  rw [e3, e2, mul_one] at e1
  exact e1

/-- Equal up to a phase. -/
def PhaseEq (gs hs : List (Gate Q K)) : Prop :=
  ∃ c : K, star c * c = 1 ∧ ∀ (ψ : (Q → ℕ) → K) (x : Q → ℕ), BitVals x → runCircuit gs ψ x = c * runCircuit hs ψ x

omit [DecidableEq K] in
theorem PhaseEq.refl (gs : List (Gate Q K)) : PhaseEq gs gs := ⟨1, by simp, fun ψ x _ => by rw [one_mul]⟩

omit [DecidableEq K] in
theorem PhaseEq.trans {a b c : List (Gate Q K)} (h1 : PhaseEq a b) (h2 : PhaseEq b c) : PhaseEq a c := by
  obtain ⟨p, hp, e1⟩ := h1
  obtain ⟨q, hq, e2⟩ := h2
  refine ⟨p * q, ?_, fun ψ x hx => by rw [e1 ψ x hx, e2 ψ x hx, mul_assoc]⟩
  rw [star_mul]
  calc star q * star p * (p * q) = star q * ((star p * p) * q) := by ring
    _ = 1 := by rw [hp, one_mul, hq]

omit [DecidableEq K] in
theorem PhaseEq.append {a b : List (Gate Q K)} (h : PhaseEq a b) (r : List (Gate Q K)) : PhaseEq (a ++ r) (b ++ r) := by
  obtain ⟨p, hp, e⟩ := h
  refine ⟨p, hp, fun ψ x hx => ?_⟩
  rw [runCircuit_append, runCircuit_append, runCircuit_congr r (fun y hy => e ψ y hy) hx, runCircuit_smul]

theorem run_commute {L : List (Gate Q K)} {g : Gate Q K} (h : ∀ k ∈ L, OpsCommute k g) (φ : (Q → ℕ) → K) {x : Q → ℕ} (hx : BitVals x) :
    applyGate g (runCircuit L φ) x = runCircuit L (applyGate g φ) x := by
  induction L generalizing φ with
  | nil => rfl
  | cons k L ih =>
    change applyGate g (runCircuit L (applyGate k φ)) x = runCircuit L (applyGate k (applyGate g φ)) x
    rw [ih (fun k hk => h k (by simp [hk]))]
    exact runCircuit_congr L (fun y hy => (h k (by simp) φ y hy).symm) hx

/-- The gate found and those before it. -/
theorem findCancel_some {u : Bool} {g adj : Gate Q K} {L : List (Gate Q K)} {i p : ℕ} (h : findCancel u g adj L i = .ok (some p)) :
    ∃ L1 k L2, L = L1 ++ k :: L2 ∧ p = i + L1.length ∧ same k adj = .ok true ∧ ∀ j ∈ L1, commute u j g = .ok true := by
  induction L generalizing i with
  | nil => simp [findCancel] at h
  | cons k L ih =>
    unfold findCancel at h
    cases hs : same k adj with
    | error e => rw [hs] at h; simp at h
    | ok r =>
      rw [hs] at h
      cases r with
      | true =>
        simp only [Except.ok.injEq, Option.some.injEq] at h
        exact ⟨[], k, L, rfl, by simp [h], hs, by simp⟩
      | false =>
        simp only at h
        cases hc : commute u k g with
        | error e => rw [hc] at h; simp at h
        | ok r =>
          rw [hc] at h
          cases r with
          | false => simp at h
          | true =>
            obtain ⟨L1, k', L2, h1, h2, h3, h4⟩ := ih h
            refine ⟨k :: L1, k', L2, by rw [h1]; rfl, by rw [h2, List.length_cons]; omega, h3, ?_⟩
            intro j hj
            rcases List.mem_cons.1 hj with rfl | hj
            · exact hc
            · exact h4 j hj

theorem findCancel_ok {u : Bool} {g adj : Gate Q K} (hg : IsGate g) (ha : IsGate adj) {L : List (Gate Q K)} (hL : ∀ k ∈ L, IsGate k ∧ IsUnitary k) (i : ℕ) :
    ∃ r, findCancel u g adj L i = .ok r := by
  induction L generalizing i with
  | nil => exact ⟨none, rfl⟩
  | cons k L ih =>
    obtain ⟨hk, hku⟩ := hL k (by simp)
    unfold findCancel
    obtain ⟨r, hr⟩ : ∃ r, same k adj = .ok r := by
      by_cases hp : k.2.Perm adj.2
      · obtain ⟨r, hr, -⟩ := same_spec hk ha hp (unitary_ne_zero hk hku)
        exact ⟨r, hr⟩
      · exact ⟨false, same_not_perm hk ha hp⟩
    rw [hr]
    cases r with
    | true => exact ⟨some i, rfl⟩
    | false =>
      obtain ⟨c, hc⟩ := commute_ok (u := u) hk hg
      simp only
      rw [hc]
      cases c with
      | true => exact ih (fun k hk => hL k (by simp [hk])) (i + 1)
      | false => exact ⟨none, rfl⟩

theorem cancel_step {u : Bool} {g adj : Gate Q K} {all : List (Gate Q K)} (hg : IsGate g) (hu : IsUnitary g) (hall : ∀ k ∈ all, IsGate k ∧ IsUnitary k)
    (hadj : gateAdjoint g = .ok adj) {p : ℕ} (h : findCancel u g adj all.reverse 0 = .ok (some p)) :
    (all.eraseIdx (all.length - p - 1)).Sublist all ∧ (all.eraseIdx (all.length - p - 1)).length + 1 = all.length ∧
      PhaseEq (all ++ [g]) (all.eraseIdx (all.length - p - 1)) := by
  obtain ⟨adj', ha1, ha2, ha3, ha4⟩ := gateAdjoint_spec hg
  rw [hadj] at ha1
  simp only [Except.ok.injEq] at ha1
  subst ha1
  obtain ⟨L1, k, L2, h1, h2, h3, h4⟩ := findCancel_some h
  have hl : all = L2.reverse ++ k :: L1.reverse := by
    have := congrArg List.reverse h1
    rw [List.reverse_reverse] at this
    rw [this]
    simp
  have hpos : all.length - p - 1 = L2.reverse.length := by
    rw [hl, h2]; simp; omega
  have her : all.eraseIdx (all.length - p - 1) = L2.reverse ++ L1.reverse := by
    rw [hpos, hl, List.eraseIdx_append_of_length_le (le_refl _)]
    simp
  refine ⟨List.eraseIdx_sublist _ _, ?_, ?_⟩
  · rw [her, hl]; simp; omega
  · rw [her]
    obtain ⟨hk, hku⟩ := hall k (by rw [hl]; simp)
    have hp : k.2.Perm adj.2 := by
      by_contra hp
      rw [same_not_perm hk ha3 hp] at h3
      simp at h3
    obtain ⟨r, hr, hiff⟩ := same_spec hk ha3 hp (unitary_ne_zero hk hku)
    rw [h3] at hr
    simp only [Except.ok.injEq] at hr
    obtain ⟨c, -, hc⟩ := hiff.1 hr.symm
    have hph := phase_of_same hg hu hk hku ha2 ha4 hp hc
    refine ⟨c, hph, fun ψ x hx => ?_⟩
    have hcm : ∀ j ∈ L1.reverse, OpsCommute j g := by
      intro j hj
      have hj' : j ∈ L1 := by simpa using hj
      exact commute_sound (hall j (by rw [hl]; simp [hj'])).1 hg (h4 j hj')
    rw [hl, runCircuit_append, runCircuit_append, runCircuit_append]
    change applyGate g (runCircuit L1.reverse (applyGate k (runCircuit L2.reverse ψ))) x = _
    rw [run_commute hcm _ hx, ← runCircuit_smul]
    refine runCircuit_congr _ (fun y hy => ?_) hx
    rw [applyGate_congr (φ := fun z => c * applyGate adj (runCircuit L2.reverse ψ) z) (fun z hz => applyGate_perm hk.nodup hp hc _ hz) hy,
      applyGate_smul, apply_adjoint hg hu ha2 ha4 _ hy]

theorem simplifyPass_spec (u : Bool) (rest : List (Gate Q K)) : ∀ (all : List (Gate Q K)) (ch : Bool), (∀ k ∈ all ++ rest, IsGate k ∧ IsUnitary k) →
    ∃ all' ch', simplifyPass u rest all ch = .ok (all', ch') ∧ all'.Sublist (all ++ rest) ∧ PhaseEq (all ++ rest) all' ∧
      (∃ n, all'.length + 2 * n = (all ++ rest).length) ∧ (ch' = false → ch = false ∧ all' = all ++ rest) ∧
      (ch' = true → ch = true ∨ all'.length < (all ++ rest).length) := by
  induction rest with
  | nil =>
    intro all ch _
    exact ⟨all, ch, rfl, by simp, by rw [List.append_nil]; exact PhaseEq.refl _, ⟨0, by simp⟩, fun h => ⟨h, by simp⟩, fun h => Or.inl h⟩
  | cons g rest ih =>
    intro all ch hall
    obtain ⟨hg, hu⟩ := hall g (by simp)
    have hall' : ∀ k ∈ all, IsGate k ∧ IsUnitary k := fun k hk => hall k (by simp [hk])
    obtain ⟨adj, hadj, ha2, ha3, ha4⟩ := gateAdjoint_spec hg
    obtain ⟨r, hr⟩ := findCancel_ok (u := u) hg ha3 (L := all.reverse) (fun k hk => hall' k (by simpa using hk)) 0
    conv => enter [1, all', 1, ch', 1]; unfold simplifyPass
    rw [hadj]
    simp only
    rw [hr]
    cases r with
    | none =>
      simp only
      obtain ⟨all', ch', h1, h2, h3, h4, h5, h6⟩ := ih (all ++ [g]) ch (by rw [List.append_assoc]; exact hall)
      rw [List.append_assoc] at h2 h3 h4 h5 h6
      exact ⟨all', ch', h1, h2, h3, h4, h5, h6⟩
    | some p =>
      simp only
      obtain ⟨s1, s2, s3⟩ := cancel_step hg hu hall' hadj hr
      obtain ⟨all', ch', h1, h2, h3, ⟨n, h4⟩, h5, h6⟩ := ih (all.eraseIdx (all.length - p - 1)) true (by
        intro k hk
        refine hall k ?_
        rcases List.mem_append.1 hk with h | h
        · simp [s1.subset h]
        · simp [h])
      refine ⟨all', ch', h1, ?_, ?_, ⟨n + 1, ?_⟩, ?_, ?_⟩
      · exact h2.trans (List.Sublist.append s1 (List.sublist_cons_self g rest))
      · have := (s3.append rest).trans h3
        rwa [List.append_assoc] at this
      · rw [List.length_append] at h4
        rw [List.length_append, List.length_cons]
        omega
      · intro h; exact absurd (h5 h).1 (by simp)
      · intro _
        right
        have := h2.length_le
        rw [List.length_append] at this
        rw [List.length_append, List.length_cons]
        omega

end TNCO
