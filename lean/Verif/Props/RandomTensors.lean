import Verif.Lemmas.RandomJoin
import Verif.Props.Names
import Verif.Props.OrderedFrozenSet
import Mathlib.Data.Finset.Lattice.Fold

/-!
# C60: the random tensor networks of the test utilities (`tnco/testing/utils.py` 137-357)
-/

namespace TNCO
variable {σ ν : Type} [DecidableEq ν] {g : GenRng σ} {enum : Finset ℕ → List ℕ}

/-- Index names: numbers are different names, and `generate_random_inds(n)` gives `n` different names (C60_names). -/
structure Namer.Ok (N : Namer ν) : Prop where
  inj : Function.Injective N.ofNat
  random : ∀ n seed names, N.random n seed = some names → names.Nodup ∧ names.length = n

/-- utils.py:313-355 never fails, and gives the networks of `join_ok` in another order and with other names. -/
theorem nameTensors_ok {N : Namer ν} (hN : N.Ok) {n nInds k nOut p m : ℕ} {ts : List (List ℕ)} {out : Finset ℕ} {comp : ℕ → ℕ}
    (H : RandomNet n nInds k nOut p m ts out) (hC : 2 ≤ k → Components n nInds nOut m ts out comp) (b : Bool) (s : σ) {r : List (List ν) × Finset ν}
    (h : nameTensors g N b ts out s = some r) :
    checkTensors r = .ok r ∧ RandomNet n nInds k nOut p m r.1 r.2 ∧ (2 ≤ k → ∃ comp, Components n nInds nOut m r.1 r.2 comp) := by
  have key : ∀ f : ℕ → ν, Set.InjOn f (allIndices ts) → r = (ts.map (List.map f), out.image f) →
      checkTensors r = .ok r ∧ RandomNet n nInds k nOut p m r.1 r.2 ∧ (2 ≤ k → ∃ comp, Components n nInds nOut m r.1 r.2 comp) := by
    intro f hf hr
    have H' := H.map hf
    rw [hr]
    refine ⟨?_, H', fun hk => ⟨comp ∘ Function.invFunOn f (allIndices ts), ?_⟩⟩
    · unfold checkTensors
      rw [if_pos (by rw [uniqueEverseen_of_nodup H'.distinct])]
    · refine Components.map H.sub (fun x hx => ?_) (hC hk)
      exact hf.leftInvOn_invFunOn (Finset.mem_coe.2 hx)
  unfold nameTensors at h
  split at h
  · obtain ⟨names, hn, rfl⟩ := Option.map_eq_some_iff.1 h
    obtain ⟨h1, h2⟩ := hN.random _ _ _ hn
    exact key _ (nameMap_injOn h1 h2 N.pyNone) rfl
  · cases h
    exact key N.ofNat hN.inj.injOn rfl

theorem joinTensors_eq {nInds : ℕ} {cs : List (List (List ℕ) × Finset ℕ)} (h : cs ≠ []) : joinTensors nInds cs = .ok (joinFrom nInds 0 cs) := by
  unfold joinTensors
  rw [if_neg h]
  rfl

/-- **C60.** A network returned by `generate_random_tensors`: `n_tensors * n_cc` tensors, all different and each without repeated indices, `n_inds * n_cc` indices and
`n_output_inds * n_cc` output indices. Every index that is no output index is in exactly `k` tensors. Output indices are in one tensor or, half of them if `k > 2`, in `k - 1`.
If `k ≥ 2` there are exactly `n_cc` connected components, with `n_tensors` tensors, `n_inds` indices and `n_output_inds` output indices each. All this for every
random generator. -/
theorem C60_random (hg : g.Ok) (he : EnumOk enum) {N : Namer ν} (hN : N.Ok) {n nInds k nOut nCc : ℕ} (hk : 1 ≤ k) (b : Bool) (s : σ)
    {ts : List (List ν)} {out : Finset ν} (h : randomTensors g enum N n nInds k nOut nCc b s = some (.ok (ts, out))) :
    RandomNet n nInds k nOut (if k ≤ 2 then nOut else nOut / 2) nCc ts out ∧ (2 ≤ k → ∃ comp, Components n nInds nOut nCc ts out comp) := by
  unfold randomTensors at h
  split at h
  · simp at h
  rename_i hc
  rcases components_cases hg he (n := n) (nInds := nInds) (nOut := nOut) hk (by omega) (by omega) nCc s with h1 | ⟨cs, s1, a1, rfl, a3⟩
  · rw [h1] at h; simp at h
  rw [a1] at h
  simp only at h
  by_cases hcs : cs = []
  · rw [joinTensors, if_pos hcs] at h; simp at h
  rw [joinTensors_eq hcs] at h
  simp only at h
  obtain ⟨r, hr, hr'⟩ := Option.map_eq_some_iff.1 h
  obtain ⟨H, hC⟩ := join_ok (n := n) (k := k) (nOut := nOut) a3 (by omega) hk (by omega)
  have hp := pick_perm (hg.shuffle (joinFrom nInds 0 cs).length s1)
  obtain ⟨k1, k2, k3⟩ := nameTensors_ok hN (H.perm hp) (fun hk => (hC hk).perm hp) b _ hr
  rw [k1] at hr'
  cases hr'
  exact ⟨k2, k3⟩

/-- **C60.** Errors: too few indices or tensors are a `ValueError`; without components there is nothing to combine, a `TypeError`; otherwise the only error is
the `ValueError` after ten attempts to make all tensors of a component different. No assertion of the function ever fails. -/
theorem C60_errors (hg : g.Ok) (he : EnumOk enum) {N : Namer ν} (hN : N.Ok) {n nInds k nOut nCc : ℕ} (hk : 1 ≤ k) (b : Bool) (s : σ) :
    (nInds + k < n + 1 + nOut ∨ n < k → randomTensors g enum N n nInds k nOut nCc b s = some (.error .valueError)) ∧
    (n + 1 + nOut ≤ nInds + k → k ≤ n → nCc = 0 → randomTensors g enum N n nInds k nOut nCc b s = some (.error .typeError)) ∧
    ∀ e, nCc ≠ 0 → randomTensors g enum N n nInds k nOut nCc b s = some (.error e) → e = .valueError := by
  refine ⟨fun h => ?_, fun h1 h2 h3 => ?_, fun e h0 h => ?_⟩
  · unfold randomTensors
    rw [if_pos (by omega)]
  · unfold randomTensors
    rw [if_neg (by omega), h3]
    rfl
  · unfold randomTensors at h
    split at h
    · simp at h; exact h.symm
    rename_i hc
    rcases components_cases hg he (n := n) (nInds := nInds) (nOut := nOut) hk (by omega) (by omega) nCc s with h1 | ⟨cs, s1, a1, rfl, a3⟩
    · rw [h1] at h; simp at h; exact h.symm
    rw [a1] at h
    simp only at h
    have hcs : cs ≠ [] := fun h => h0 (by rw [h]; rfl)
    rw [joinTensors_eq hcs] at h
    simp only at h
    obtain ⟨r, hr, hr'⟩ := Option.map_eq_some_iff.1 h
    obtain ⟨H, hC⟩ := join_ok (n := n) (k := k) (nOut := nOut) a3 (by omega) hk (by omega)
    have hp := pick_perm (hg.shuffle (joinFrom nInds 0 cs).length s1)
    obtain ⟨k1, -⟩ := nameTensors_ok hN (H.perm hp) (fun hk => (hC hk).perm hp) b _ hr
    rw [k1] at hr'
    cases hr'

/-- **C60.** The function ends if `generate_random_inds` does, and always with `randomize_names=False`. -/
theorem C60_ends {N : Namer ν} {n nInds k nOut nCc : ℕ} (b : Bool) (s : σ) (h : b = false ∨ ∀ m seed, N.random m seed ≠ none) :
    randomTensors g enum N n nInds k nOut nCc b s ≠ none := by
  unfold randomTensors
  split
  · simp
  split
  · simp
  split
  · simp
  · rw [ne_eq, Option.map_eq_none_iff]
    unfold nameTensors
    rcases h with rfl | h
    · simp
    · split
      · rw [Option.map_eq_none_iff]
        exact h _ _
      · simp

theorem component_none (hg : g.Ok) (he : EnumOk enum) {n : ℕ} (hn : 2 ≤ n) (m : ℕ) (s : σ) :
    component g enum n 1 n 0 m s = .error .valueError := by
  rcases component_cases hg he (n := n) (nInds := 1) (k := n) (nOut := 0) (by omega) (le_refl _) (by omega) m s with h | ⟨c, s1, a1, a2, a3⟩
  · exact h
  · exfalso
    have hall : ∀ t ∈ c.1, t = [0] := by
      intro t ht
      have h1 := a2.nonempty t ht
      have h2 := a2.nodup t ht
      have h3 := a2.lt t ht
      match t, h1, h2, h3 with
      | [x], _, _, h3 => rw [Nat.lt_one_iff.1 (h3 x (by simp))]
      | x :: y :: r, _, h2, h3 =>
        have hx := Nat.lt_one_iff.1 (h3 x (by simp))
        have hy := Nat.lt_one_iff.1 (h3 y (by simp))
        simp [hx, hy] at h2
    have hl := a2.length
    match e : c.1, hl, a3, hall with
    | a :: b :: r, _, a3, hall =>
      rw [hall a (by simp), hall b (by simp)] at a3
      simp at a3
    | [_], hl, _, _ => simp at hl; omega
    | [], hl, _, _ => simp at hl; omega

/-- **C60, finding.** One index that connects all tensors of a component (`n_tensors = k`, `n_inds = 1`) passes the check of the arguments, and the network exists, but
the function always gives up: all its tensors have the same indices. -/
theorem C60_violated (hg : g.Ok) (he : EnumOk enum) (N : Namer ν) {n nCc : ℕ} (hn : 2 ≤ n) (hc : nCc ≠ 0) (b : Bool) (s : σ) :
    ¬ (1 + n < n + 1 + 0 ∨ n < n) ∧ randomTensors g enum N n 1 n 0 nCc b s = some (.error .valueError) := by
  refine ⟨by omega, ?_⟩
  unfold randomTensors
  rw [if_neg (by omega)]
  obtain ⟨m, rfl⟩ := Nat.exists_eq_succ_of_ne_zero hc
  simp only [components, component_none hg he hn, bind, Except.bind]

/-- **C60, finding.** With `k = 1` an index connects no tensors, so the `connected components` are not connected: of two tensors of a component, no index of one is connected with an
index of the other. -/
theorem C60_violated_one (hg : g.Ok) (he : EnumOk enum) {N : Namer ν} (hN : N.Ok) {n nInds nOut nCc : ℕ} (b : Bool) (s : σ)
    {ts : List (List ν)} {out : Finset ν} (h : randomTensors g enum N n nInds 1 nOut nCc b s = some (.ok (ts, out)))
    {t u : List ν} (ht : t ∈ ts) (hu : u ∈ ts) (hne : t ≠ u) {x y : ν} (hx : x ∈ t) (hy : y ∈ u) : ¬ LinkedInds ts x y := by
  obtain ⟨H, -⟩ := C60_random hg he hN (le_refl 1) b s h
  have hone : ∀ z, z ∈ allIndices ts → degree ts z ≤ 1 := by
    intro z hz
    by_cases ho : z ∈ out
    · rcases H.outer z ho with h | h <;> omega
    · exact le_of_eq (H.inner z hz ho)
  have huniq : ∀ {a b : List ν} {z : ν}, a ∈ ts → b ∈ ts → z ∈ a → z ∈ b → a = b := by
    intro a b z ha hb hza hzb
    by_contra hab
    have h1 := hone z (mem_all.2 ⟨a, ha, hza⟩)
    have : 2 ≤ degree ts z := by
      unfold degree
      rw [List.countP_eq_length_filter]
      have hsub : [a, b].Subperm (ts.filter fun t => decide (z ∈ t)) := by
        apply List.subperm_of_subset
        · simp [hab]
        · intro c hc
          simp only [List.mem_cons, List.not_mem_nil, or_false] at hc
          rcases hc with rfl | rfl
          · exact List.mem_filter.2 ⟨ha, by simpa using hza⟩
          · exact List.mem_filter.2 ⟨hb, by simpa using hzb⟩
      simpa using hsub.length_le
    omega
  intro hl
  have : ∀ z, LinkedInds ts x z → z ∈ t := by
    intro z hz
    induction hz with
    | refl => exact hx
    | tail _ hab ih =>
      obtain ⟨c, hc, h1, h2⟩ := hab
      rw [huniq ht hc ih h1]
      exact h2
  exact hne (huniq ht hu (this y hl) hy)

/-! ## Random index names -/

theorem unique_step (pre : List ν) (x : ν) : uniqueEverseen (uniqueEverseen pre ++ [x]) = uniqueEverseen (pre ++ [x]) := by
  rw [uniqueEverseen_snoc, uniqueEverseen_snoc, uniqueEverseen_of_nodup (uniqueEverseen_nodup pre)]

theorem namesLoop_iff (get : σ → ν × σ) (n fuel : ℕ) (pre : List ν) (s : σ) (names : List ν) :
    namesLoop get n fuel (uniqueEverseen pre) s = some names ↔ ∃ m, 1 ≤ m ∧ m ≤ fuel ∧ names = uniqueEverseen (pre ++ draws get m s) ∧ names.length = n ∧
      ∀ j, 1 ≤ j → j < m → (uniqueEverseen (pre ++ draws get j s)).length ≠ n := by
  induction fuel generalizing pre s with
  | zero =>
    simp only [namesLoop]
    constructor
    · intro h; cases h
    · rintro ⟨m, h1, h2, -⟩; omega
  | succ fuel ih =>
    simp only [namesLoop, unique_step]
    have e : ∀ m, pre ++ draws get (m + 1) s = (pre ++ [(get s).1]) ++ draws get m (get s).2 := fun m => by simp [draws]
    split
    · rename_i hne
      rw [ih]
      constructor
      · rintro ⟨m, h1, h2, h3, h4, h5⟩
        refine ⟨m + 1, by omega, by omega, by rw [e]; exact h3, h4, ?_⟩
        intro j hj1 hj2
        obtain ⟨j, rfl⟩ : ∃ i, j = i + 1 := ⟨j - 1, by omega⟩
        rw [e]
        by_cases hj : j = 0
        · subst hj
          simpa [draws] using hne
        · exact h5 j (by omega) (by omega)
      · rintro ⟨m, h1, h2, h3, h4, h5⟩
        obtain ⟨m, rfl⟩ : ∃ i, m = i + 1 := ⟨m - 1, by omega⟩
        rw [e] at h3
        have hm : m ≠ 0 := by
          rintro rfl
          rw [h3] at h4
          simp only [draws, List.append_nil] at h4
          exact hne h4
        refine ⟨m, by omega, by omega, h3, h4, ?_⟩
        intro j hj1 hj2
        rw [← e]
        exact h5 (j + 1) (by omega) (by omega)
    · rename_i heq
      rw [not_not] at heq
      constructor
      · intro h
        cases h
        refine ⟨1, le_refl _, by omega, by simp [draws], heq, ?_⟩
        intro j h1 h2; omega
      · rintro ⟨m, h1, h2, h3, h4, h5⟩
        by_cases hm : m = 1
        · subst hm
          rw [h3]
          simp [draws]
        · exact absurd (by simpa [draws] using heq) (h5 1 (le_refl _) (by omega))

/-- **C60.** `generate_random_inds(n)` returns the first `n` different names among those drawn, in the order they were drawn; it ends exactly if `n` different names are
ever drawn. -/
theorem C60_names (get : σ → ν × σ) (n : ℕ) (hn : n ≠ 0) (fuel : ℕ) (s : σ) (names : List ν) :
    randomInds get fuel n s = some names ↔ ∃ m, 1 ≤ m ∧ m ≤ fuel ∧ names = firstOccurrences (draws get m s) ∧ names.length = n ∧
      ∀ j, 1 ≤ j → j < m → (firstOccurrences (draws get j s)).length ≠ n := by
  unfold randomInds
  rw [if_neg hn, show ([] : List ν) = uniqueEverseen [] from rfl, namesLoop_iff]
  simp only [List.nil_append, uniqueEverseen_eq]

/-- **C60.** The names are different, and there are `n`. -/
theorem C60_names_ok (get : σ → ν × σ) (fuel n : ℕ) (s : σ) {names : List ν} (h : randomInds get fuel n s = some names) : names.Nodup ∧ names.length = n := by
  by_cases hn : n = 0
  · subst hn
    unfold randomInds at h
    rw [if_pos rfl] at h
    cases h
    simp
  · obtain ⟨m, -, -, h3, h4, -⟩ := (C60_names get n hn fuel s names).1 h
    refine ⟨?_, h4⟩
    rw [h3, ← uniqueEverseen_eq]
    exact uniqueEverseen_nodup _

/-! ## A case -/

/-- The order of iteration over a set of small integers. -/
def ascending (s : Finset ℕ) : List ℕ := (List.range (s.sup id + 1)).filter (· ∈ s)

theorem ascending_ok : EnumOk ascending := by
  intro s
  refine ⟨List.nodup_range.filter _, fun x => ?_⟩
  unfold ascending
  rw [List.mem_filter, List.mem_range, decide_eq_true_eq]
  exact ⟨And.right, fun h => ⟨Nat.lt_succ_of_le (Finset.le_sup (f := id) h), h⟩⟩

/-- A generator that always chooses the first entries. -/
def firstRng : GenRng Unit where
  randrange _ _ := (0, ())
  sample _ k _ := (List.range k, ())
  shuffle n _ := (List.range n, ())

theorem firstRng_ok : firstRng.Ok :=
  ⟨fun _ _ h => h, fun _ k _ h => ⟨List.nodup_range, by simp [firstRng], fun i hi => by
    have : i < k := by simpa [firstRng] using hi
    omega⟩, fun _ _ => .refl _⟩

/-- Names for the case: `generate_random_inds` gives negative numbers. -/
def intNamer : Namer ℤ where
  ofNat n := n
  pyNone := 0
  random n _ := some ((List.range n).map fun i : ℕ => -1 - (i : ℤ))

theorem intNamer_ok : intNamer.Ok := by
  refine ⟨fun a b h => by simpa [intNamer] using h, fun n seed names h => ?_⟩
  cases h
  refine ⟨List.nodup_range.map fun a b h => by simpa using h, by simp⟩

/-- Two components with four tensors, six indices and two output indices each; an index connects three tensors. -/
theorem random_case : randomTensors firstRng ascending intNamer 4 6 3 2 2 false () =
    some (.ok ([[0, 1, 2, 3, 4, 5], [0, 1, 2, 3, 5], [0, 2, 3], [1], [6, 7, 8, 9, 10, 11], [6, 7, 8, 9, 11], [6, 8, 9], [7]], {4, 5, 10, 11})) := by
  decide +kernel

example := C60_random firstRng_ok ascending_ok intNamer_ok (by decide) false () random_case

/-- Three tensors, but only indices for two. -/
example : randomTensors firstRng ascending intNamer 3 2 2 1 1 false () = some (.error .valueError) :=
  (C60_errors firstRng_ok ascending_ok intNamer_ok (by decide) false ()).1 (Or.inl (by decide))

/-- Two tensors and one index. -/
example := C60_violated firstRng_ok ascending_ok intNamer (n := 2) (nCc := 1) (by decide) (by decide) true ()

/-- Two tensors without a common index are a connected component. -/
theorem random_case_one : randomTensors firstRng ascending intNamer 2 3 1 0 1 true () = some (.ok ([[-1, -2], [-3]], ∅)) := by
  decide +kernel

example : ¬ LinkedInds [[-1, -2], [-3]] (-2 : ℤ) (-3) :=
  C60_violated_one firstRng_ok ascending_ok intNamer_ok true () random_case_one (t := [-1, -2]) (u := [-3]) (by decide) (by decide) (by decide) (by decide) (by decide)

/-- Three names, of which the second is drawn twice. -/
example : randomInds (fun s : ℕ => (s / 2, s + 1)) 9 3 1 = some [0, 1, 2] := by decide +kernel

/-- Only one name is ever drawn. -/
example : randomInds (fun s : ℕ => (7, s)) 9 3 0 = none := by decide +kernel

end TNCO
