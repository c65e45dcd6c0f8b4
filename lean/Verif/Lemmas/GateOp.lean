import Verif.Spec.Circuit
import Verif.Lemmas.SumFix
import Verif.Lemmas.NDArray
import Verif.Lemmas.Tensordot

/-! Products of gates. -/

namespace TNCO
variable {Q K : Type} [DecidableEq Q] [CommRing K]

theorem entry_congr {g : NDArray K × List Q} {x x' y y' : Q → ℕ} (h1 : ∀ q ∈ g.2, x q = x' q) (h2 : ∀ q ∈ g.2, y q = y' q) :
    entry g x y = entry g x' y' := by
  unfold entry
  rw [List.map_congr_left h1, List.map_congr_left h2]

theorem binVal_ravel (l : List Q) (x : Q → ℕ) : binVal (l.map x) = ravel (l.map fun _ => 2) (l.map x) := by
  have key : ∀ (n : ℕ) (l : List Q), (l.map x).foldl (fun n b => 2 * n + b) n = n * 2 ^ l.length + ravel (l.map fun _ => 2) (l.map x) := by
    intro n l
    induction l generalizing n with
    | nil => simp [ravel]
    | cons q l ih =>
      rw [List.map_cons, List.foldl_cons, ih, List.map_cons, ravel, List.length_cons, pow_succ]
      have : (l.map fun _ : Q => 2).prod = 2 ^ l.length := by rw [List.map_const', List.prod_replicate]
      rw [this]
      ring
  unfold binVal
  rw [key]
  simp

theorem binVal_lt {l : List Q} {x : Q → ℕ} (h : ∀ q ∈ l, x q < 2) : binVal (l.map x) < 2 ^ l.length := by
  rw [binVal_ravel, List.map_const']
  have := ravel_lt (forall2_map (d := fun _ => 2) h)
  rwa [List.map_const', List.prod_replicate] at this

theorem binVal_inj {l : List Q} {x y : Q → ℕ} (hx : ∀ q ∈ l, x q < 2) (hy : ∀ q ∈ l, y q < 2) (h : binVal (l.map x) = binVal (l.map y)) :
    ∀ q ∈ l, x q = y q := by
  rw [binVal_ravel, binVal_ravel] at h
  have h1 := unravel_ravel (forall2_map (d := fun _ => 2) hx)
  have h2 := unravel_ravel (forall2_map (d := fun _ => 2) hy)
  rw [h] at h1
  exact List.map_inj_left.1 (h1.symm.trans h2)

/-- The sum over all rows as a sum over the bits. -/
theorem sum_binVal {l : List Q} (hn : l.Nodup) (G : ℕ → K) (f : Q → ℕ) :
    ∑ k ∈ Finset.range (2 ^ l.length), G k = sumOver (fun _ => 2) l (fun g => G (binVal (l.map g))) f := by
  have h := sum_ravel (d := fun _ : Q => 2) hn G f
  rw [List.map_const', List.prod_replicate] at h
  rw [h]
  refine sumOver_congr fun g _ _ => ?_
  rw [binVal_ravel, List.map_const']

/-- The entries of the reshaped matrix. -/
theorem entry_reshape {g : NDArray K × List Q} (hg : IsGate g) {a : NDArray K}
    (ha : a.shape = List.replicate (2 * g.2.length) 2) (hd : a.data = g.1.data) {x y : Q → ℕ} :
    a.get (g.2.map x ++ g.2.map y) = entry g x y := by
  unfold entry NDArray.get
  rw [ha, hd, hg.shape, two_mul, List.replicate_add, ravel_append _ _ _ _ (by simp)]
  rw [binVal_ravel, binVal_ravel, List.map_const']
  simp [ravel]

theorem applyGate_congr {g : NDArray K × List Q} {ψ φ : (Q → ℕ) → K} (h : ∀ x, BitVals x → ψ x = φ x) {x : Q → ℕ} (hx : BitVals x) :
    applyGate g ψ x = applyGate g φ x := by
  unfold applyGate
  refine sumOver_congr fun y h1 h2 => ?_
  rw [h y]
  intro q
  by_cases hq : q ∈ g.2
  · exact h2 q hq
  · rw [h1 q hq]; exact hx q

theorem applyGate_smul (g : NDArray K × List Q) (c : K) (ψ : (Q → ℕ) → K) (x : Q → ℕ) :
    applyGate g (fun y => c * ψ y) x = c * applyGate g ψ x := by
  unfold applyGate
  rw [← sumOver_mul_left (fun _ => c) _ fun _ _ => rfl]
  exact sumOver_congr fun y _ _ => by ring

theorem runCircuit_append (gs hs : List (NDArray K × List Q)) (ψ : (Q → ℕ) → K) :
    runCircuit (gs ++ hs) ψ = runCircuit hs (runCircuit gs ψ) := by unfold runCircuit; rw [List.foldl_append]

theorem runCircuit_congr (gs : List (NDArray K × List Q)) {ψ φ : (Q → ℕ) → K} (h : ∀ x, BitVals x → ψ x = φ x) {x : Q → ℕ} (hx : BitVals x) :
    runCircuit gs ψ x = runCircuit gs φ x := by
  induction gs generalizing ψ φ with
  | nil => exact h x hx
  | cons g gs ih => exact ih fun y hy => applyGate_congr h hy

theorem runCircuit_smul (gs : List (NDArray K × List Q)) (c : K) (ψ : (Q → ℕ) → K) (x : Q → ℕ) :
    runCircuit gs (fun y => c * ψ y) x = c * runCircuit gs ψ x := by
  induction gs generalizing ψ with
  | nil => rfl
  | cons g gs ih =>
    change runCircuit gs (applyGate g fun y => c * ψ y) x = c * runCircuit gs (applyGate g ψ) x
    rw [← ih]
    congr 1
    funext y
    exact applyGate_smul g c ψ y

/-- The kernel of the product of two gates on their common space. -/
def prodKernel (A B : NDArray K × List Q) (sh : List Q) (x h : Q → ℕ) : K :=
  sumOver (fun _ => 2) sh (fun s => entry A x (over sh s h) * entry B (over sh s x) h) fun _ => 0

theorem applyGate_mul {A B : NDArray K × List Q} (hA : A.2.Nodup) (hB : B.2.Nodup) {sh all : List Q} (hsh : sh.Nodup) (hall : all.Nodup)
    (msh : ∀ q, q ∈ sh ↔ q ∈ A.2 ∧ q ∈ B.2) (mall : ∀ q, q ∈ all ↔ q ∈ A.2 ∨ q ∈ B.2) (ψ : (Q → ℕ) → K) (x : Q → ℕ) :
    applyGate A (applyGate B ψ) x = sumOver (fun _ => 2) all (fun h => prodKernel A B sh x h * ψ h) x := by
  set ao := A.2.filter (· ∉ B.2) with hao
  have mao : ∀ q, q ∈ ao ↔ q ∈ A.2 ∧ q ∉ B.2 := fun q => by rw [hao, List.mem_filter, decide_eq_true_eq]
  have nao : ao.Nodup := hA.filter _
  have pA : A.2.Perm (sh ++ ao) := by
    refine perm_of_mem hA ?_ ?_
    · rw [List.nodup_append]
      refine ⟨hsh, nao, fun a ha b hb e => ?_⟩
      subst e
      exact ((mao a).1 hb).2 ((msh a).1 ha).2
    · intro q
      rw [List.mem_append, msh, mao]
      constructor
      · intro h
        by_cases hb : q ∈ B.2
        · exact Or.inl ⟨h, hb⟩
        · exact Or.inr ⟨h, hb⟩
      · rintro (h | h) <;> exact h.1
  have pall : all.Perm (ao ++ B.2) := by
    refine perm_of_mem hall ?_ ?_
    · rw [List.nodup_append]
      refine ⟨nao, hB, fun a ha b hb e => ?_⟩
      subst e
      exact ((mao a).1 ha).2 hb
    · intro q
      rw [List.mem_append, mall, mao]
      constructor
      · rintro (h | h)
        · by_cases hb : q ∈ B.2
          · exact Or.inr hb
          · exact Or.inl ⟨h, hb⟩
        · exact Or.inr h
      · rintro (h | h)
        · exact Or.inl h.1
        · exact Or.inr h
  set z : Q → ℕ := fun _ => 0 with hz
  -- the left side
  have hl : applyGate A (applyGate B ψ) x = sumOver (fun _ => 2) sh (fun s => sumOver (fun _ => 2) ao (fun u => sumOver (fun _ => 2) B.2
      (fun h => entry A x (over sh s (over B.2 h u)) * entry B (over sh s x) (over B.2 h u) * ψ (over all (over B.2 h u) x)) z) z) z := by
    unfold applyGate
    rw [sumOver_perm pA hA, sumOver_base _ _ x z, sumOver_append_fix]
    refine sumOver_congr fun s _ _ => sumOver_congr fun u _ _ => ?_
    rw [sumOver_base _ _ _ z, ← sumOver_mul_left (fun _ => entry A x (over (sh ++ ao) (over ao u s) x)) _ fun _ _ => rfl]
    refine sumOver_congr fun h _ _ => ?_
    rw [← mul_assoc]
    congr 1
    · congr 1
      · refine entry_congr (fun _ _ => rfl) fun q hq => ?_
        rw [over_mem (pA.mem_iff.1 hq)]
        by_cases hb : q ∈ B.2
        · rw [over_not fun h' => ((mao q).1 h').2 hb, over_mem ((msh q).2 ⟨hq, hb⟩)]
        · rw [over_mem ((mao q).2 ⟨hq, hb⟩), over_not fun h' => hb ((msh q).1 h').2, over_not hb]
      · refine entry_congr (fun q hq => ?_) fun q hq => ?_
        · by_cases ha : q ∈ A.2
          · rw [over_mem (pA.mem_iff.1 ha), over_not fun h' => ((mao q).1 h').2 hq, over_mem ((msh q).2 ⟨ha, hq⟩)]
          · rw [over_not fun h' => ha (pA.mem_iff.2 h'), over_not fun h' => ha ((msh q).1 h').1]
        · rw [over_mem hq, over_mem hq]
    · congr 1
      funext q
      by_cases hb : q ∈ B.2
      · rw [over_mem hb, over_mem ((mall q).2 (Or.inr hb)), over_mem hb]
      · rw [over_not hb]
        by_cases ha : q ∈ A.2
        · rw [over_mem (pA.mem_iff.1 ha), over_mem ((mao q).2 ⟨ha, hb⟩), over_mem ((mall q).2 (Or.inl ha)), over_not hb]
        · rw [over_not fun h' => ha (pA.mem_iff.2 h'), over_not fun h' => ((mall q).1 h').elim ha hb]
  -- the right side
  have hr : sumOver (fun _ => 2) all (fun h => prodKernel A B sh x h * ψ h) x = sumOver (fun _ => 2) ao (fun u => sumOver (fun _ => 2) B.2
      (fun h => sumOver (fun _ => 2) sh (fun s => entry A x (over sh s (over B.2 h u)) * entry B (over sh s x) (over B.2 h u) *
        ψ (over all (over B.2 h u) x)) z) z) z := by
    rw [sumOver_base _ _ x z, sumOver_perm pall hall, sumOver_append_fix]
    refine sumOver_congr fun u _ _ => sumOver_congr fun h _ _ => ?_
    have e : prodKernel A B sh x (over all (over B.2 h u) x) = prodKernel A B sh x (over B.2 h u) := by
      unfold prodKernel
      refine sumOver_congr fun s _ _ => ?_
      congr 1
      · refine entry_congr (fun _ _ => rfl) fun q hq => ?_
        by_cases hs : q ∈ sh
        · rw [over_mem hs, over_mem hs]
        · rw [over_not hs, over_not hs, over_mem ((mall q).2 (Or.inl hq))]
      · refine entry_congr (fun _ _ => rfl) fun q hq => ?_
        rw [over_mem ((mall q).2 (Or.inr hq))]
    rw [e]
    unfold prodKernel
    rw [← sumOver_mul_right _ (fun _ => ψ (over all (over B.2 h u) x)) fun _ _ => rfl]
  rw [hl, hr, sumOver_comm2]
  refine sumOver_congr fun u _ _ => ?_
  rw [sumOver_comm2]

end TNCO
