import Verif.Lemmas.SampleDist
import Verif.Lemmas.Dict

/-! # The counts of the sampler -/

namespace TNCO
variable {Q K R : Type} [DecidableEq Q] [Field K] [StarRing K] [DecidableEq K] [Field R] [LinearOrder R] [IsStrictOrderedRing R]

/-- The results of successive runs of the sampler. -/
def sampleSeq {τ : Type} (random : τ → R × τ) (sq : K → R) (enum : Finset (Q × Stage) → List (Q × Stage)) (qubits : List Q)
    (steps : List (SampleStep Q K)) : ℕ → τ → List (Except PyErr (List ℕ))
  | 0, _ => []
  | n + 1, s =>
    let r := runSteps (rngFlip random) sq enum qubits steps (List.replicate qubits.length 0) s
    r.1 :: sampleSeq random sq enum qubits steps n r.2

/-- How often a bitstring is among the results. -/
def countOf (b : List ℕ) (l : List (Except PyErr (List ℕ))) : ℕ :=
  l.countP fun r => match r with
    | .ok b' => decide (b' = b)
    | .error _ => false

omit [DecidableEq Q] [Field K] [StarRing K] [DecidableEq K] [Field R] [LinearOrder R] [IsStrictOrderedRing R] in
theorem dset_sum {κ : Type} [DecidableEq κ] {D : List (κ × ℕ)} (hn : (D.map Prod.fst).Nodup) (k : κ) :
    ((dset D k ((dget D k).getD 0 + 1)).map Prod.snd).sum = (D.map Prod.snd).sum + 1 := by
  unfold dset
  split
  · rename_i hk
    induction D with
    | nil => simp at hk
    | cons e D ih =>
      rw [List.map_cons, List.nodup_cons] at hn
      rw [dget_cons]
      by_cases h : e.1 = k
      · have : D.map (fun a => if a.1 = k then (a.1, e.2 + 1) else a) = D := by
          conv_rhs => rw [← List.map_id D]
          refine List.map_congr_left fun a ha => ?_
          rw [if_neg fun e' => hn.1 (by rw [h, ← e']; exact List.mem_map_of_mem ha)]
          rfl
        simp only [List.map_cons, h, if_true, Option.getD_some, List.sum_cons, this]
        omega
      · simp only [List.map_cons, h, if_false, List.sum_cons]
        have hk' : k ∈ D.map Prod.fst := by
          rw [List.map_cons, List.mem_cons] at hk
          exact hk.resolve_left fun e' => h e'.symm
        rw [ih hn.2 hk']
        omega
  · rename_i hk
    rw [dget_none.2 hk]
    simp

theorem sampleLoop_ok {τ : Type} {random : τ → R × τ} {sq : K → R} {enum : Finset (Q × Stage) → List (Q × Stage)} {qubits : List Q}
    {steps : List (SampleStep Q K)} (P : List ℕ → Prop)
    (h : ∀ s, ∃ b s', runSteps (rngFlip random) sq enum qubits steps (List.replicate qubits.length 0) s = (.ok b, s') ∧ P b) (n : ℕ) :
    ∀ (s : τ) (d : List (List ℕ × ℕ)), (d.map Prod.fst).Nodup → (∀ e ∈ d, P e.1) →
      ∃ d' s', sampleLoop random sq enum qubits steps n s d = .ok (d', s') ∧ (d'.map Prod.fst).Nodup ∧ (∀ e ∈ d', P e.1) ∧
        (d'.map Prod.snd).sum = (d.map Prod.snd).sum + n ∧
        ∀ b, dget d' b = if countOf b (sampleSeq random sq enum qubits steps n s) = 0 then dget d b
          else some ((dget d b).getD 0 + countOf b (sampleSeq random sq enum qubits steps n s)) := by
  induction n with
  | zero => intro s d hd hP; exact ⟨d, s, rfl, hd, hP, rfl, fun b => by simp [sampleSeq, countOf]⟩
  | succ n ih =>
    intro s d hd hP
    obtain ⟨b, s', e, hb⟩ := h s
    obtain ⟨d', s'', a1, a2, a3, a4, a5⟩ := ih s' (dset d b ((dget d b).getD 0 + 1)) (dset_nodup hd _ _) (by
      intro e' he'
      have : e'.1 ∈ (dset d b ((dget d b).getD 0 + 1)).map Prod.fst := List.mem_map_of_mem he'
      rw [dset_keys] at this
      have hor : e'.1 ∈ d.map Prod.fst ∨ e'.1 = b := by
        split at this
        · exact Or.inl this
        · rwa [List.mem_append, List.mem_singleton] at this
      rcases hor with h | h
      · obtain ⟨e0, h0, h1⟩ := List.mem_map.1 h
        rw [← h1]; exact hP e0 h0
      · rw [h]; exact hb)
    refine ⟨d', s'', by simp only [sampleLoop, e]; exact a1, a2, a3, by rw [a4, dset_sum hd]; omega, fun b' => ?_⟩
    have hc : countOf b' (sampleSeq random sq enum qubits steps (n + 1) s) =
        countOf b' (sampleSeq random sq enum qubits steps n s') + if b = b' then 1 else 0 := by
      simp only [sampleSeq, e, countOf, List.countP_cons]
      by_cases h : b = b' <;> simp [h]
    rw [a5, hc, dget_dset]
    by_cases h : b' = b
    · subst h
      simp only [if_true]
      by_cases h0 : countOf b' (sampleSeq random sq enum qubits steps n s') = 0
      · simp [h0]
      · simp [h0]; omega
    · simp only [h, if_false, Ne.symm h, Nat.add_zero]

end TNCO
