import Verif.Lemmas.SampleRun

/-! # The distribution of the results of the sampler -/

namespace TNCO
variable {Q K R : Type} [DecidableEq Q] [Field K] [StarRing K] [DecidableEq K] [Field R] [LinearOrder R] [IsStrictOrderedRing R]

section
omit [LinearOrder R] [IsStrictOrderedRing R]
variable {α β : Type}

theorem expect_pure (a : α) (g : α → R) : Dist.expect (pure a : Dist R α) g = g a := by
  change (List.map (fun e : R × α => e.1 * g e.2) [(1, a)]).sum = g a
  simp

theorem expect_bind (d : Dist R α) (f : α → Dist R β) (g : β → R) : Dist.expect (d >>= f) g = Dist.expect d fun a => Dist.expect (f a) g := by
  change (List.map (fun e : R × β => e.1 * g e.2) (List.flatMap (fun e : R × α => (f e.2).map fun e' : R × β => (e.1 * e'.1, e'.2)) d)).sum = _
  unfold Dist.expect
  induction (show List (R × α) from d) with
  | nil => rfl
  | cons e d ih =>
    rw [List.flatMap_cons, List.map_append, List.sum_append, ih, List.map_cons, List.sum_cons]
    congr 1
    have key : ∀ l : List (R × β), (List.map (fun e => e.1 * g e.2) (List.map (fun e' : R × β => (e.1 * e'.1, e'.2)) l)).sum =
        e.1 * (List.map (fun e => e.1 * g e.2) l).sum := by
      intro l
      induction l with
      | nil => simp
      | cons a l ih =>
        simp only [List.map_cons, List.sum_cons, mul_add] at ih ⊢
        rw [ih, mul_assoc]
    exact key (f e.2)

theorem expect_flip (p : R) (g : Bool → R) : Dist.expect (Dist.flip p) g = p * g true + (1 - p) * g false := by
  change (List.map (fun e : R × Bool => e.1 * g e.2) [(p, true), (1 - p, false)]).sum = _
  simp

end

/-- Bits that no gate has touched are 0 in all states with a positive probability. -/
theorem born_untouched {sq : K → R} (A : IsAbsSq sq) {gates : List (Gate Q K)} {qubits : List Q} (hq : ∀ q ∈ gates.flatMap Prod.snd, q ∈ qubits) {x : Q → ℕ}
    (h : born sq gates qubits x ≠ 0) : ∀ q ∈ qubits, q ∉ gates.flatMap Prod.snd → x q = 0 := by
  by_contra hn
  apply h
  unfold born
  apply A.eq_zero
  rw [run_zero gates qubits (gates.flatMap Prod.snd) (fun q => Iff.rfl) hq, if_neg hn, zero_mul]

theorem born_depends {sq : K → R} {gates : List (Gate Q K)} (hn : ∀ g ∈ gates, g.2.Nodup) {qubits : List Q} (hq : ∀ q ∈ gates.flatMap Prod.snd, q ∈ qubits)
    {x y : Q → ℕ} (h : ∀ q ∈ qubits, x q = y q) : born sq gates qubits x = born sq gates qubits y := by
  unfold born
  rw [run_depends gates qubits hn hq _ (fun y z h => ?_) x y h]
  unfold zeroState
  have : (∀ q ∈ qubits, y q = 0) ↔ ∀ q ∈ qubits, z q = 0 := ⟨fun h' q hq => (h q hq).symm.trans (h' q hq), fun h' q hq => (h q hq).trans (h' q hq)⟩
  simp only [this]

theorem born_snoc (sq : K → R) (pre : List (Gate Q K)) (g : Gate Q K) (qubits : List Q) (x : Q → ℕ) :
    born sq (pre ++ [g]) qubits x = sq (applyGate g (runCircuit pre (zeroState qubits)) x) := by
  unfold born
  rw [runCircuit_append]
  rfl

theorem flip_bits {x : Q → ℕ} (hx : BitVals x) (q : Q) : BitVals (Function.update x q (1 - x q)) := by
  intro p
  by_cases h : p = q
  · subst h; rw [Function.update_self]; omega
  · rw [Function.update_of_ne h]; exact hx p

theorem flip_eq {qubits : List Q} (hn : qubits.Nodup) {q : Q} (hq : q ∈ qubits) {x : Q → ℕ} (hx : BitVals x) :
    (qubits.map x).set (qubits.idxOf q) ((qubits.map x).getD (qubits.idxOf q) 0 ^^^ 1) = qubits.map (Function.update x q (1 - x q)) := by
  rw [getD_idxOf hq, set_idxOf hn]
  congr 2
  have := hx q
  interval_cases x q <;> rfl

/-- A gate does not make both probabilities of its qubit 0 if they were not. -/
theorem pair_ne {sq : K → R} (A : IsAbsSq sq) {g : NDArray K × List Q} {q : Q} (hg : g.2 = [q]) (hu : IsUnitary g) (ψ : (Q → ℕ) → K) {x : Q → ℕ}
    (hx : BitVals x) (h : sq (ψ x) ≠ 0) : sq (applyGate g ψ x) + sq (applyGate g ψ (Function.update x q (1 - x q))) ≠ 0 := by
  have e := unitary_pair A hg hu ψ x
  have hb := hx q
  have hself : ∀ i, x q = i → x = Function.update x q i := fun i hi => by rw [← hi, Function.update_eq_self]
  have n0 := A.nonneg (ψ (Function.update x q 0))
  have n1 := A.nonneg (ψ (Function.update x q 1))
  intro hz
  rcases (show x q = 0 ∨ x q = 1 by omega) with hq | hq
  · rw [hq, Nat.sub_zero] at hz
    rw [hself 0 hq] at h
    rw [hself 0 hq, Function.update_idem] at hz
    exact h (by linarith)
  · rw [hq, Nat.sub_self] at hz
    rw [hself 1 hq] at h
    rw [hself 1 hq, Function.update_idem] at hz
    exact h (by linarith)

/-- The expected value of any function of the result of the sampler, from all states with their probabilities. -/
theorem run_expect {sq : K → R} (A : IsAbsSq sq) {enum : Finset (Q × Stage) → List (Q × Stage)} {qubits : List Q} (hn : qubits.Nodup)
    (f : Except PyErr (List ℕ) → R) (rest : List (Gate Q K)) : ∀ (pre : List (Gate Q K)) (ss : List (SampleStep Q K)), (∀ h ∈ pre ++ rest, SampleGate h) →
    (∀ q ∈ (pre ++ rest).flatMap Prod.snd, q ∈ qubits) → StepsOk sq enum qubits pre rest ss →
    sumOver (fun _ => 2) qubits (fun x => born sq pre qubits x * Dist.expect (runSteps Dist.flip sq enum qubits ss (qubits.map x)) f) (fun _ => 0) =
      sumOver (fun _ => 2) qubits (fun x => born sq (pre ++ rest) qubits x * f (.ok (qubits.map x))) fun _ => 0 := by
  induction rest with
  | nil =>
    intro pre ss hg hq hss
    cases ss with
    | cons s ss => simp [StepsOk] at hss
    | nil =>
      rw [List.append_nil]
      refine sumOver_congr fun x _ _ => ?_
      simp only [runSteps, expect_pure]
  | cons g rest ih =>
    intro pre ss hg hq hss
    cases ss with
    | nil => simp [StepsOk] at hss
    | cons s ss =>
      obtain ⟨h1, h2⟩ := hss
      have hap : pre ++ g :: rest = (pre ++ [g]) ++ rest := by simp
      have hgg := hg g (by simp)
      have hgq : ∀ q ∈ g.2, q ∈ qubits := fun q hm => hq q (by
        rw [List.flatMap_append, List.flatMap_cons, List.mem_append, List.mem_append]; exact Or.inr (Or.inl hm))
      rw [hap] at hg hq ⊢
      rw [← ih (pre ++ [g]) ss hg hq h2]
      simp only [born_snoc]
      rcases h1 with ⟨hm, rfl⟩ | ⟨-, q, arrs, inds, path, outQ, hgs, rfl, hst⟩
      · have := classical_step A hgg.1 hm hn hgq (runCircuit pre (zeroState qubits)) fun r => match r with
          | .error e => f (.error e)
          | .ok b => Dist.expect (runSteps Dist.flip sq enum qubits ss b) f
        refine Eq.trans ?_ this
        refine sumOver_congr fun x _ _ => ?_
        unfold born
        congr 1
        simp only [runSteps]
        cases stepClassical qubits ⟨g.1.shape, fun k => if g.1.data k ≠ 0 then 1 else 0⟩ g.2 (qubits.map x) with
        | error e => simp only [expect_pure]
        | ok b => rfl
      · have hqq : q ∈ qubits := hgq q (by rw [hgs]; simp)
        have hpq : ∀ p ∈ pre.flatMap Prod.snd, p ∈ qubits := fun p hp => hq p (by
          rw [List.flatMap_append, List.flatMap_append, List.mem_append, List.mem_append]; exact Or.inl (Or.inl hp))
        refine quantum_step A hgs hgg.unitary hn hqq (runCircuit pre (zeroState qubits)) (fun b => Dist.expect (runSteps Dist.flip sq enum qubits ss b) f)
          (fun b => Dist.expect (runSteps Dist.flip sq enum qubits (.quantum arrs inds path outQ [q] :: ss) b) f) fun x hx hne => ?_
        have hu := born_untouched A hpq (x := x) hne
        have hst' := hst x hx fun p hp hm => hu p hp fun hp' => hm (by rw [List.flatMap_append, List.mem_append]; exact Or.inl hp')
        simp only [born_snoc] at hst'
        simp only [runSteps, hst']
        rw [if_neg (pair_ne A hgs hgg.unitary _ hx hne), expect_bind, expect_flip]
        simp only [if_true, Bool.false_eq_true, if_false, flip_eq hn hqq hx]

/-- Every run: no errors, and only states with a positive probability. -/
theorem run_ok {τ : Type} {random : τ → R × τ} (hr : ∀ s, 0 ≤ (random s).1 ∧ (random s).1 < 1) {sq : K → R} (A : IsAbsSq sq)
    {enum : Finset (Q × Stage) → List (Q × Stage)} {qubits : List Q} (hn : qubits.Nodup)
    (rest : List (Gate Q K)) : ∀ (pre : List (Gate Q K)) (ss : List (SampleStep Q K)), (∀ h ∈ pre ++ rest, SampleGate h) →
    (∀ q ∈ (pre ++ rest).flatMap Prod.snd, q ∈ qubits) → StepsOk sq enum qubits pre rest ss → ∀ (x : Q → ℕ), BitVals x → born sq pre qubits x ≠ 0 →
    ∀ s : τ, ∃ y s', runSteps (rngFlip random) sq enum qubits ss (qubits.map x) s = (.ok (qubits.map y), s') ∧ BitVals y ∧
      born sq (pre ++ rest) qubits y ≠ 0 := by
  induction rest with
  | nil =>
    intro pre ss hg hq hss x hx hne s
    cases ss with
    | cons s ss => simp [StepsOk] at hss
    | nil => exact ⟨x, s, rfl, hx, by rwa [List.append_nil]⟩
  | cons g rest ih =>
    intro pre ss hg hq hss x hx hne s
    cases ss with
    | nil => simp [StepsOk] at hss
    | cons s' ss =>
      obtain ⟨h1, h2⟩ := hss
      have hap : pre ++ g :: rest = (pre ++ [g]) ++ rest := by simp
      have hgg := hg g (by simp)
      have hgq : ∀ q ∈ g.2, q ∈ qubits := fun q hm => hq q (by
        rw [List.flatMap_append, List.flatMap_cons, List.mem_append, List.mem_append]; exact Or.inr (Or.inl hm))
      rw [hap] at hg hq ⊢
      rcases h1 with ⟨⟨⟨σ, hσ⟩, hm1⟩, rfl⟩ | ⟨-, q, arrs, inds, path, outQ, hgs, rfl, hst⟩
      · simp only [runSteps]
        rw [stepClassical_eq hgg.1 hσ hn hgq fun q _ => hx q]
        refine ih (pre ++ [g]) ss hg hq h2 _ (digits_bits hx _) ?_ s
        rw [born_snoc, classical_born A hgg.1 hσ hm1]
        simp only
        rw [← eq_digits hgg.1.nodup (fun q _ => rfl) fun q _ => hx q]
        exact hne
      · have hqq : q ∈ qubits := hgq q (by rw [hgs]; simp)
        have hpq : ∀ p ∈ pre.flatMap Prod.snd, p ∈ qubits := fun p hp => hq p (by
          rw [List.flatMap_append, List.flatMap_append, List.mem_append, List.mem_append]; exact Or.inl (Or.inl hp))
        have hu := born_untouched A hpq (x := x) hne
        have hst' := hst x hx fun p hp hm => hu p hp fun hp' => hm (by rw [List.flatMap_append, List.mem_append]; exact Or.inl hp')
        simp only [runSteps, hst']
        simp only [born_snoc]
        have hpn := pair_ne A hgs hgg.unitary (runCircuit pre (zeroState qubits)) hx hne
        rw [if_neg hpn]
        have m0 := A.nonneg (applyGate g (runCircuit pre (zeroState qubits)) x)
        have m1 := A.nonneg (applyGate g (runCircuit pre (zeroState qubits)) (Function.update x q (1 - x q)))
        obtain ⟨r0, r1⟩ := hr s
        set p0 := sq (applyGate g (runCircuit pre (zeroState qubits)) x) with hp0
        set p1 := sq (applyGate g (runCircuit pre (zeroState qubits)) (Function.update x q (1 - x q))) with hp1
        have hpos : 0 < p0 + p1 := lt_of_le_of_ne (by linarith) (Ne.symm hpn)
        change ∃ y s', runSteps (rngFlip random) sq enum qubits ss
          (if decide ((random s).1 < p1 / (p0 + p1)) = true then _ else _) (random s).2 = _ ∧ _
        by_cases hlt : (random s).1 < p1 / (p0 + p1)
        · rw [if_pos (by simpa using hlt), flip_eq hn hqq hx]
          refine ih (pre ++ [g]) ss hg hq h2 _ (flip_bits hx q) ?_ _
          rw [born_snoc, ← hp1]
          intro hz
          rw [hz, zero_div] at hlt
          linarith
        · rw [if_neg (by simpa using hlt)]
          refine ih (pre ++ [g]) ss hg hq h2 x hx ?_ _
          rw [born_snoc, ← hp0]
          intro hz
          rw [hz, zero_add] at hlt hpos
          rw [div_self hpos.ne'] at hlt
          exact hlt r1

/-- Two preparations of the same circuit, with whatever paths, give the same results for the same random numbers. -/
theorem runs_agree {τ : Type} {random : τ → R × τ} (hr : ∀ s, 0 ≤ (random s).1 ∧ (random s).1 < 1) {sq : K → R} (A : IsAbsSq sq)
    {enum enum' : Finset (Q × Stage) → List (Q × Stage)} {qubits : List Q} (hn : qubits.Nodup)
    (rest : List (Gate Q K)) : ∀ (pre : List (Gate Q K)) (ss ss' : List (SampleStep Q K)), (∀ h ∈ pre ++ rest, SampleGate h) →
    (∀ q ∈ (pre ++ rest).flatMap Prod.snd, q ∈ qubits) → StepsOk sq enum qubits pre rest ss → StepsOk sq enum' qubits pre rest ss' →
    ∀ (x : Q → ℕ), BitVals x → born sq pre qubits x ≠ 0 →
    ∀ s : τ, runSteps (rngFlip random) sq enum qubits ss (qubits.map x) s = runSteps (rngFlip random) sq enum' qubits ss' (qubits.map x) s := by
  induction rest with
  | nil =>
    intro pre ss ss' hg hq hss hss' x hx hne s
    cases ss with
    | cons s ss => simp [StepsOk] at hss
    | nil =>
      cases ss' with
      | cons s ss => simp [StepsOk] at hss'
      | nil => rfl
  | cons g rest ih =>
    intro pre ss ss' hg hq hss hss' x hx hne s
    cases ss with
    | nil => simp [StepsOk] at hss
    | cons t ss =>
      cases ss' with
      | nil => simp [StepsOk] at hss'
      | cons t' ss' =>
        obtain ⟨h1, h2⟩ := hss
        obtain ⟨h1', h2'⟩ := hss'
        have hap : pre ++ g :: rest = (pre ++ [g]) ++ rest := by simp
        have hgg := hg g (by simp)
        have hgq : ∀ q ∈ g.2, q ∈ qubits := fun q hm => hq q (by
          rw [List.flatMap_append, List.flatMap_cons, List.mem_append, List.mem_append]; exact Or.inr (Or.inl hm))
        rw [hap] at hg hq
        rcases h1 with ⟨hmon, rfl⟩ | ⟨hnm, q, arrs, inds, path, outQ, hgs, rfl, hst⟩
        · rcases h1' with ⟨-, rfl⟩ | ⟨hnm, -⟩
          · obtain ⟨⟨σ, hσ⟩, hm1⟩ := hmon
            simp only [runSteps]
            rw [stepClassical_eq hgg.1 hσ hn hgq fun q _ => hx q]
            refine ih (pre ++ [g]) ss ss' hg hq h2 h2' _ (digits_bits hx _) ?_ s
            rw [born_snoc, classical_born A hgg.1 hσ hm1]
            simp only
            rw [← eq_digits hgg.1.nodup (fun q _ => rfl) fun q _ => hx q]
            exact hne
          · exact absurd hmon hnm
        · rcases h1' with ⟨hmon, -⟩ | ⟨-, q', arrs', inds', path', outQ', hgs', rfl, hst2⟩
          · exact absurd hmon hnm
          · rw [hgs, List.singleton_inj] at hgs'
            subst hgs'
            have hqq : q ∈ qubits := hgq q (by rw [hgs]; simp)
            have hpq : ∀ p ∈ pre.flatMap Prod.snd, p ∈ qubits := fun p hp => hq p (by
              rw [List.flatMap_append, List.flatMap_append, List.mem_append, List.mem_append]; exact Or.inl (Or.inl hp))
            have hu := born_untouched A hpq (x := x) hne
            have hst' := hst x hx fun p hp hm => hu p hp fun hp' => hm (by rw [List.flatMap_append, List.mem_append]; exact Or.inl hp')
            have hst3 := hst2 x hx fun p hp hm => hu p hp fun hp' => hm (by rw [List.flatMap_append, List.mem_append]; exact Or.inl hp')
            simp only [runSteps, hst', hst3]
            simp only [born_snoc]
            have hpn := pair_ne A hgs hgg.unitary (runCircuit pre (zeroState qubits)) hx hne
            rw [if_neg hpn, if_neg hpn]
            have m0 := A.nonneg (applyGate g (runCircuit pre (zeroState qubits)) x)
            have m1 := A.nonneg (applyGate g (runCircuit pre (zeroState qubits)) (Function.update x q (1 - x q)))
            obtain ⟨r0, r1⟩ := hr s
            set p0 := sq (applyGate g (runCircuit pre (zeroState qubits)) x) with hp0
            set p1 := sq (applyGate g (runCircuit pre (zeroState qubits)) (Function.update x q (1 - x q))) with hp1
            have hpos : 0 < p0 + p1 := lt_of_le_of_ne (by linarith) (Ne.symm hpn)
            change runSteps (rngFlip random) sq enum qubits ss (if decide ((random s).1 < p1 / (p0 + p1)) = true then _ else _) (random s).2 =
              runSteps (rngFlip random) sq enum' qubits ss' (if decide ((random s).1 < p1 / (p0 + p1)) = true then _ else _) (random s).2
            by_cases hlt : (random s).1 < p1 / (p0 + p1)
            · rw [if_pos (by simpa using hlt), flip_eq hn hqq hx]
              refine ih (pre ++ [g]) ss ss' hg hq h2 h2' _ (flip_bits hx q) ?_ _
              rw [born_snoc, ← hp1]
              intro hz
              rw [hz, zero_div] at hlt
              linarith
            · rw [if_neg (by simpa using hlt)]
              refine ih (pre ++ [g]) ss ss' hg hq h2 h2' x hx ?_ _
              rw [born_snoc, ← hp0]
              intro hz
              rw [hz, zero_add] at hlt hpos
              rw [div_self hpos.ne'] at hlt
              exact hlt r1

end TNCO
