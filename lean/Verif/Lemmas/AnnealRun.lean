import Verif.Lemmas.Anneal
import Verif.Props.Parallel
import Mathlib.Data.List.Sort

/-! All the runs of an annealing app. -/

namespace TNCO
variable {σ κ ρ V : Type}

theorem parallelArgs_seeds (seeds : List ℕ) :
    parallelArgs ([] : List (List ℕ)) [("seed", seeds)] = .ok (seeds.map fun s => ([], [("seed", s)])) := by
  simp [parallelArgs, zipRows]

/-- What one call returns. -/
def RunOk (A : Anneal σ κ ρ V) (betas : List ℚ) (L : ℕ) (quiet : Prop) (seed : ℕ) (r : ρ) : Prop :=
  ∃ B ps ks, (quiet → B = none) ∧ A.paths seed = some (.ok ps) ∧ Parts A betas L seed B ps ks ∧ A.total ks = .ok r

theorem sortResults_perm {C : Type} [LinearOrder C] (cost : ρ → C) (l : List ρ) : (sortResults cost l).Perm l := List.perm_insertionSort _ _

theorem sortResults_sorted {C : Type} [LinearOrder C] (cost : ρ → C) (l : List ρ) : (sortResults cost l).Pairwise fun a b => cost a ≤ cost b := by
  have : Std.Total (fun a b : ρ => cost a ≤ cost b) := ⟨fun a b => le_total _ _⟩
  have : IsTrans ρ (fun a b : ρ => cost a ≤ cost b) := ⟨fun a b c h1 h2 => h1.trans h2⟩
  exact List.pairwise_insertionSort _ _

variable {A : Anneal σ κ ρ V} {C : Type} [LinearOrder C] {cost : ρ → C} {betas : List ℚ} {sized : Bool} {nSteps : Option ℕ} {ratio : ℕ → ℕ → V}
  {W : ParEnv V} {nJobs : ℤ} {seeds : List ℕ} {sched : List Event} {sys sys' : Sys}

theorem runAnneal_results {rs : List ρ} (h : runAnneal A cost betas sized nSteps ratio W nJobs seeds sched sys = (sys', some (.ok rs))) :
    ∃ rs0, rs = sortResults cost rs0 ∧ List.Forall₂ (RunOk A betas (stepsOf nSteps betas) (.tick ∉ sched)) seeds rs0 := by
  unfold runAnneal at h
  split at h
  · next sys1 rs0 hp =>
    cases h
    refine ⟨rs0, rfl, ?_⟩
    obtain ⟨rows, names, hrows, hlen, -, hall⟩ := C41_results (annealCore_local A betas sized nSteps ratio) hp
    rw [parallelArgs_seeds] at hrows
    cases hrows
    rw [List.length_map] at hlen
    rw [List.forall₂_iff_get]
    refine ⟨hlen.symm, fun i h1 h2 => ?_⟩
    obtain ⟨sig, fuel, hs, ht, ha⟩ := hall i (by simpa using h1) h2
    obtain ⟨B, -, hB, ps, ks, g1, g2, g3⟩ := alone_ok fuel hs (by simp [startMem, World.init, h1]) (by trivial) ha
    refine ⟨B, ps, ks, fun hq => hB (ht hq), ?_, ?_, g3⟩
    · simpa [dget] using g1
    · simpa [dget] using g2
  · next h' => exact (h' _ _ h).elim

theorem makeBuffers_zero {cd : Codec V} {alloc : ℕ → ℕ} {zero : V} {n : ℕ} (hn : 0 < n) :
    ∀ (ds : List (List Char)), (∀ d ∈ ds, ∃ c bs w, d = [c] ∧ c ≠ 'x' ∧ calcsize c = some w ∧ 0 < w ∧ cd.enc c zero = .ok bs) → ∀ sys,
    ∃ sys' ids, makeBuffers cd alloc zero n ds sys = (sys', .ok ids)
  | [], _, sys => ⟨_, _, rfl⟩
  | d :: ds, h, sys => by
    obtain ⟨c, bs, w, rfl, hx, hw, hw0, henc⟩ := h d List.mem_cons_self
    have hp : ∀ k, ∃ ys, packAll cd c (List.replicate k zero) = .ok ys := by
      intro k
      induction k with
      | zero => exact ⟨_, rfl⟩
      | succ k ih =>
        obtain ⟨ys, hy⟩ := ih
        refine ⟨bs ++ ys, ?_⟩
        simp only [List.replicate_succ, packAll, hx, if_false, henc, hy]
    obtain ⟨ys, hy⟩ := hp n
    obtain ⟨sys', ids, hr⟩ := makeBuffers_zero (cd := cd) (alloc := alloc) (zero := zero) hn ds (fun d hd => h d (List.mem_cons_of_mem _ hd)) sys.link
    have hsz : ¬ ((n : ℤ) * (w : ℤ) ≤ 0) := by
      have : (0 : ℤ) < (n : ℤ) * (w : ℤ) := by positivity
      omega
    refine ⟨sys', sys.fresh :: ids, ?_⟩
    simp only [makeBuffers, mkBuffer, hw, sharedMemory, List.length_replicate, hsz, if_false, hy, hr]

/-- The call returns results if each of the runs is safe, there is at least one, and the workers have ended. -/
theorem runAnneal_ended (hj : nJobs ≠ 0 ∨ W.joblib = false) (hseeds : seeds ≠ []) (henc : ∀ c ∈ ['f', 'b', '?'], ∃ bs, W.cd.enc c W.zero = .ok bs)
    (hsafe : ∀ seed ∈ seeds, ∃ ps, A.Safe betas (stepsOf nSteps betas) seed ps)
    (hended : ∀ seq names, collect (runSched (annealCore A betas true nSteps ratio) seq (seeds.map fun s => ([], [("seed", s)])) sched
      (World.init W.zero seeds.length names)) ≠ none) :
    ∃ sys' rs, runAnneal A cost betas true nSteps ratio W nJobs seeds sched sys = (sys', some (.ok rs)) := by
  set L := stepsOf nSteps betas
  set core := annealCore A betas true nSteps ratio with hcore
  have hloc := annealCore_local A betas true nSteps ratio
  have hn : 0 < seeds.length := List.length_pos_iff.2 hseeds
  have halone : ∀ (i : ℕ) (hi : i < seeds.length) names sig, ∃ fuel r, alone core i sig fuel
      (.start seeds[i]) (startMem W.zero seeds.length names) = some (.ok r) := by
    intro i hi names sig
    obtain ⟨ps, hs⟩ := hsafe _ (List.getElem_mem hi)
    obtain ⟨r, h⟩ := alone_safe (ratio := ratio) hs i (startMem W.zero seeds.length names) (by simp [startMem, World.init, hi]) sig
    exact ⟨_, r, h⟩
  have herr : ∀ sys' e, parallel core W.cd W.alloc W.zero W.joblib nJobs [] [("seed", seeds)] [("log2_total_cost", ['f'])] sched sys ≠
      (sys', some (.error (.task e))) := by
    intro sys' e h
    obtain ⟨rows, names, i, hi, hrows, sig, fuel, -, -, ha⟩ := C41_errors hloc h
    rw [parallelArgs_seeds] at hrows
    cases hrows
    have hi' : i < seeds.length := by simpa using hi
    obtain ⟨fuel', r, hr'⟩ := halone i hi' names sig
    have h1 := ha
    simp only [List.getElem_map, List.length_map] at h1
    have := alone_unique h1 hr'
    cases this
  obtain ⟨sys1, ids, hb⟩ := makeBuffers_zero (cd := W.cd) (alloc := W.alloc) (zero := W.zero) hn [['f'], ['b'], ['?'], ['f']] (by
    intro d hd
    simp only [List.mem_cons, List.not_mem_nil, or_false] at hd
    rcases hd with rfl | rfl | rfl | rfl
    · obtain ⟨bs, h⟩ := henc 'f' (by simp)
      exact ⟨'f', bs, 4, rfl, by decide, rfl, by decide, h⟩
    · obtain ⟨bs, h⟩ := henc 'b' (by simp)
      exact ⟨'b', bs, 1, rfl, by decide, rfl, by decide, h⟩
    · obtain ⟨bs, h⟩ := henc '?' (by simp)
      exact ⟨'?', bs, 1, rfl, by decide, rfl, by decide, h⟩
    · obtain ⟨bs, h⟩ := henc 'f' (by simp)
      exact ⟨'f', bs, 4, rfl, by decide, rfl, by decide, h⟩) sys
  suffices h : ∃ sys' rs, parallel core W.cd W.alloc W.zero W.joblib nJobs [] [("seed", seeds)] [("log2_total_cost", ['f'])] sched sys =
      (sys', some (.ok rs)) by
    obtain ⟨sys', rs, h⟩ := h
    refine ⟨sys', sortResults cost rs, ?_⟩
    unfold runAnneal
    rw [← hcore, h]
  cases hpar : parallel core W.cd W.alloc W.zero W.joblib nJobs [] [("seed", seeds)] [("log2_total_cost", ['f'])] sched sys with
  | mk sys' res =>
  have hp := hpar
  unfold parallel at hp
  simp only [parallelArgs_seeds, List.length_map, List.map_cons, List.map_nil, List.cons_append, List.nil_append, hb] at hp
  have hids : ids.length = 4 := by rw [(makeBuffers_ok hb).1]; simp
  obtain ⟨a, b, c, d, rfl⟩ : ∃ a b c d, ids = [a, b, c, d] := by
    match ids, hids with
    | [a, b, c, d], _ => exact ⟨a, b, c, d, rfl⟩
  rw [if_neg (by
    simp only [Bool.and_eq_true, decide_eq_true_eq, not_and]
    rintro ⟨h1, h2⟩ h3
    rcases hj with h | h
    · exact h h3
    · rw [h] at h2; cases h2)] at hp
  have hclash : keywordClash ["seed"] (List.map Prod.fst (dupdate [] (["log2_total_cost"].zip ([a, b, c, d].drop 3)))) = false := by
    simp [dupdate, dset, keywordClash]
  rw [hclash] at hp
  simp only [Bool.false_eq_true, if_false] at hp
  generalize hnames : List.map Prod.fst (dupdate [] (["log2_total_cost"].zip ([a, b, c, d].drop 3))) = names at hp
  have hend := hended (!(decide (nJobs ≠ 1) && W.joblib)) names
  split at hp
  · next hc => exact (hend hc).elim
  · next e hc =>
    exfalso
    cases hp
    exact herr _ _ hpar
  · next rs hc =>
    cases hp
    exact ⟨_, _, rfl⟩

/-- All the runs return if each of them is safe, there is at least one, and the workers get enough turns. -/
theorem runAnneal_returns (hj : nJobs ≠ 0 ∨ W.joblib = false) (hseeds : seeds ≠ []) (henc : ∀ c ∈ ['f', 'b', '?'], ∃ bs, W.cd.enc c W.zero = .ok bs)
    {M : ℕ} (hsafe : ∀ seed ∈ seeds, ∃ ps, A.Safe betas (stepsOf nSteps betas) seed ps ∧ ps.length ≤ M)
    {rounds : List (List Event)} (hr : ∀ r ∈ rounds, ∀ i < seeds.length, .work i ∈ r)
    (hlen : seeds.length * (2 + M * (stepsOf nSteps betas + 2) + 2) ≤ rounds.length) :
    ∃ sys' rs, runAnneal A cost betas true nSteps ratio W nJobs seeds rounds.flatten sys = (sys', some (.ok rs)) := by
  refine runAnneal_ended hj hseeds henc (fun seed hs => (hsafe seed hs).imp fun ps h => h.1) fun seq names => ?_
  set L := stepsOf nSteps betas
  have halone : ∀ (i : ℕ) (hi : i < seeds.length) sig, ∃ r, alone (annealCore A betas true nSteps ratio) i sig (2 + M * (L + 2))
      (.start seeds[i]) (startMem W.zero seeds.length names) = some (.ok r) := by
    intro i hi sig
    obtain ⟨ps, hs, hM⟩ := hsafe _ (List.getElem_mem hi)
    obtain ⟨r, h⟩ := alone_safe (ratio := ratio) hs i (startMem W.zero seeds.length names) (by simp [startMem, World.init, hi]) sig
    have := alone_mono ((M - ps.length) * (L + 2)) h
    refine ⟨r, ?_⟩
    rw [← this]
    change _ = alone (annealCore A betas true nSteps ratio) i sig (2 + ps.length * (L + 2) + (M - ps.length) * (L + 2)) _ _
    congr 1
    have : ps.length * (L + 2) + (M - ps.length) * (L + 2) = M * (L + 2) := by rw [← Nat.add_mul]; congr 1; omega
    omega
  have hend := C41_ends (annealCore_local A betas true nSteps ratio) (seq := seq) (rows := seeds.map fun s => ([], [("seed", s)])) (zero := W.zero)
    (names := names) (N := 2 + M * (L + 2)) (fun i hi sig => by
      obtain ⟨r, h⟩ := halone i (by simpa using hi) sig
      refine ⟨.ok r, ?_⟩
      simp only [List.getElem_map, List.length_map]
      exact h) (rounds := rounds) (by simpa using hr) (by simpa using hlen)
  rwa [List.length_map] at hend

end TNCO
