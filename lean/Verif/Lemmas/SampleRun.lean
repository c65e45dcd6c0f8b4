import Verif.Lemmas.SamplePrepare

/-! # The steps that the sampler prepares, and the distribution of its results -/

namespace TNCO
variable {Q K R : Type} [DecidableEq Q] [Field K] [StarRing K] [DecidableEq K] [Field R] [LinearOrder R] [IsStrictOrderedRing R]
variable {S σ W : Type} [Zero W] [Add W] [LT W] [DecidableLT W]

/-- What is asked of the environment of `sample`: sets are listed without repetitions, the generators of `fuse` behave as documented, `r` is `1/sqrt 2`, the
optimizer returns complete paths for networks in which no tensor has an index twice. -/
structure SampleEnv (A : SampleArgs Q K R S σ W) : Prop where
  rng : A.load.g.Ok
  enumN : EnumOk A.load.enumN
  enum : EnumOk A.load.enum
  iter : EnumOk A.iter
  r : star A.load.r * A.load.r + star A.load.r * A.load.r = 1
  optimize : ∀ n inds, inds ≠ [] → (∀ xs ∈ inds, xs.Nodup) →
    ∃ path, A.optimize n inds = some (.ok path) ∧ ValidPath inds.length path ∧ path.length + 1 = inds.length

/-- The gates that `sample` accepts: one-qubit unitaries and classical operations. -/
def SampleGate (g : Gate Q K) : Prop := IsGate g ∧ (IsMonomial (2 ^ g.2.length) g.1 ∨ g.2.length = 1 ∧ IsUnitary g)

theorem SampleGate.unitary {g : Gate Q K} (h : SampleGate g) : IsUnitary g := by
  rcases h.2 with h | h
  · exact monomial_unitary h
  · exact h.2

/-- What is prepared for a gate after the gates `pre`. -/
def StepOk (sq : K → R) (enum : Finset (Q × Stage) → List (Q × Stage)) (qubits : List Q) (pre : List (Gate Q K)) (g : Gate Q K) (s : SampleStep Q K) :
    Prop :=
  (IsMonomial (2 ^ g.2.length) g.1 ∧ s = .classical ⟨g.1.shape, fun k => if g.1.data k ≠ 0 then 1 else 0⟩ g.2) ∨
  ¬ IsMonomial (2 ^ g.2.length) g.1 ∧ ∃ q arrs inds path outQ, g.2 = [q] ∧ s = .quantum arrs inds path outQ [q] ∧
    ∀ x, BitVals x → (∀ p ∈ qubits, p ∉ (pre ++ [g]).flatMap Prod.snd → x p = 0) →
      stepProbs sq enum qubits arrs inds path outQ [q] (qubits.map x) =
        .ok (qubits.idxOf q, born sq (pre ++ [g]) qubits x, born sq (pre ++ [g]) qubits (Function.update x q (1 - x q)))

def StepsOk (sq : K → R) (enum : Finset (Q × Stage) → List (Q × Stage)) (qubits : List Q) : List (Gate Q K) → List (Gate Q K) → List (SampleStep Q K) → Prop
  | _, [], [] => True
  | pre, g :: rest, s :: ss => StepOk sq enum qubits pre g s ∧ StepsOk sq enum qubits (pre ++ [g]) rest ss
  | _, _, _ => False

theorem isClassical_total {sq : K → R} {m : NDArray K} {r : ℕ} (hs : m.shape = [r, r]) : ∃ b, isClassical sq m = .ok b := by
  unfold isClassical
  simp only [hs, ne_eq, not_true_eq_false, false_and, if_false]
  split
  · exact ⟨_, rfl⟩
  · exact ⟨_, rfl⟩

theorem prepareGate_ok {A : SampleArgs Q K R S σ W} (hE : SampleEnv A) (hsq : IsAbsSq A.sq) {pre rest : List (Gate Q K)} {g : Gate Q K}
    (hg : ∀ h ∈ pre ++ g :: rest, SampleGate h) (hfuel : 12 * ((pre ++ g :: rest).map fun g => g.2.length).sum < A.load.fuel) :
    ∃ s, prepareGate A (pre ++ g :: rest) pre.length g = some (.ok s) ∧
      ∀ qubits : List Q, qubits.Nodup → (∀ q ∈ (pre ++ g :: rest).flatMap Prod.snd, q ∈ qubits) → StepOk A.sq A.load.enum qubits pre g s := by
  have hgg := hg g (by simp)
  unfold prepareGate
  obtain ⟨b, hb⟩ := isClassical_total (sq := A.sq) hgg.1.shape
  have hiff := isClassical_square hsq hgg.1.shape
  rw [hb]
  cases b with
  | true => exact ⟨_, rfl, fun qubits _ _ => Or.inl ⟨hiff.1 hb, rfl⟩⟩
  | false =>
    have hnm : ¬ IsMonomial (2 ^ g.2.length) g.1 := fun h => by
      have := hiff.2 h
      rw [hb] at this
      simp at this
    obtain ⟨hl1, hu⟩ := hgg.2.resolve_left hnm
    obtain ⟨q, hq⟩ := List.length_eq_one_iff.1 hl1
    have htake : (pre ++ g :: rest).take (pre.length + 1) = pre ++ [g] := by
      rw [List.take_append]
      simp
    set C := pre ++ [g] with hC
    have hCm : ∀ h ∈ C, h ∈ pre ++ g :: rest := by
      intro h hh
      rcases List.mem_append.1 hh with h' | h'
      · simp [h']
      · rw [List.mem_singleton.1 h']; simp
    have hfC : 12 * (C.map fun g => g.2.length).sum < A.load.fuel := by
      have e1 : ((pre ++ g :: rest).map fun g => g.2.length).sum = (C.map fun g => g.2.length).sum + (rest.map fun g => g.2.length).sum := by
        rw [hC]; simp; omega
      omega
    obtain ⟨arrs, inds, out, e1, c1, c2, c3, c4, c5, c, hc, -, hval⟩ := C38_load A.load hE.rng hE.enumN hE.enum hE.r (A.seed pre.length) C (.str "0") .none
      (fun h hh => (hg h (hCm h hh)).1) (fun _ h hh => (hg h (hCm h hh)).unitary) (by simp [StateOk]) trivial hfC
    simp only
    rw [htake, e1]
    simp only
    have hqC : q ∈ C.flatMap Prod.snd := by rw [hC, List.flatMap_append]; simp [hq]
    have hout : ∀ p t, (p, t) ∈ out ↔ p ∈ C.flatMap Prod.snd ∧ t = .f := by
      intro p t
      rw [c3]
      simp [stateOf, tokenVec]
    have hqo : (q, Stage.f) ∈ out := (hout q .f).2 ⟨hqC, rfl⟩
    obtain ⟨hOn, hOm⟩ := hE.iter out
    set O := A.iter out with hO
    obtain ⟨path, p1, p2, p3⟩ := hE.optimize pre.length (inds ++ O.map fun x => [x]) (by
      intro h
      have hx := c4 _ hqo
      rw [(List.append_eq_nil_iff.1 h).1] at hx
      simp at hx) (fun xs hxs => by
      rcases List.mem_append.1 hxs with h | h
      · exact c2 xs h
      · obtain ⟨x, -, rfl⟩ := List.mem_map.1 h
        exact List.nodup_singleton x)
    rw [p1]
    refine ⟨_, rfl, fun qubits hqn hqm => Or.inr ⟨hnm, q, arrs, _, path, O.map Prod.fst, hq, by rw [hq], fun x hx h0 => ?_⟩⟩
    have hCq : ∀ p ∈ C.flatMap Prod.snd, p ∈ qubits := by
      intro p hp
      obtain ⟨h, hh, hph⟩ := List.mem_flatMap.1 hp
      exact hqm p (List.mem_flatMap.2 ⟨h, hCm h hh, hph⟩)
    have hOf : ∀ o ∈ O, o = (o.1, Stage.f) := by
      rintro ⟨p, t⟩ ho
      rw [((hout p t).1 ((hOm _).1 ho)).2]
    have hOq : ∀ p ∈ O.map Prod.fst, p ∈ qubits := by
      intro p hp
      obtain ⟨⟨p', t⟩, ho, rfl⟩ := List.mem_map.1 hp
      exact hCq _ ((hout _ t).1 ((hOm _).1 ho)).1
    -- the value of the network
    have hamp : ∀ y : Q → ℕ, BitVals y → (∀ p ∈ qubits, p ∉ C.flatMap Prod.snd → y p = 0) →
        ∃ a, amplitudeOf A.load.enum path (inds ++ O.map fun x => [x]) (arrs ++ O.map fun o => bitVec (y o.1)) = .ok a ∧ A.sq a = born A.sq C qubits y := by
      intro y hy hy0
      set l := uniqueEverseen (inds.flatten.filter fun x => x ∉ out) with hl
      have hlm : ∀ x, x ∈ l ↔ x ∈ inds.flatten ∧ x ∉ out := fun x => by rw [hl, mem_uniqueEverseen, List.mem_filter, decide_eq_true_eq]
      refine ⟨_, amplitudeOf_value hE.enum c1 c2 c4 c5 hOn hOm p2 p3 (uniqueEverseen_nodup _) hlm fun o _ => hy o.1, ?_⟩
      have e := hval l (uniqueEverseen_nodup _) hlm (fun o => y o.1) fun o _ => hy o.1
      unfold born
      rw [← amplitude_zero A.load.r C (fun h hh => (hg h (hCm h hh)).1.nodup) hCq hy hy0 (x0 := y), e, hsq.mul, hsq.eq_one.2 hc, one_mul]
    set y := Function.update x q (1 - x q) with hyd
    have hy : BitVals y := by
      intro p
      by_cases h : p = q
      · subst h; rw [hyd, Function.update_self]; omega
      · rw [hyd, Function.update_of_ne h]; exact hx p
    have hy0 : ∀ p ∈ qubits, p ∉ C.flatMap Prod.snd → y p = 0 := by
      intro p h1 h2
      have : p ≠ q := fun e => h2 (e ▸ hqC)
      rw [hyd, Function.update_of_ne this]
      exact h0 p h1 h2
    obtain ⟨a0, f1, f2⟩ := hamp x hx h0
    obtain ⟨a1, f3, f4⟩ := hamp y hy hy0
    have hqq : ∀ p ∈ [q], p ∈ qubits := by
      intro p hp
      rw [List.mem_singleton.1 hp]
      exact hCq q hqC
    have l1 : locate qubits [q] = .ok [qubits.idxOf q] := by unfold locate; rw [if_pos hqq]; rfl
    have l2 : locate qubits (O.map Prod.fst) = .ok ((O.map Prod.fst).map fun p => qubits.idxOf p) := by unfold locate; rw [if_pos hOq]
    simp only [stepProbs, l1, l2]
    have v1 : ((O.map Prod.fst).map fun p => qubits.idxOf p).map (fun i => (bitVec ((qubits.map x).getD i 0) : NDArray K)) = O.map fun o => bitVec (x o.1) := by
      rw [List.map_map, List.map_map]
      refine List.map_congr_left fun o ho => ?_
      simp only [Function.comp]
      rw [getD_idxOf (hOq o.1 (List.mem_map_of_mem ho))]
    have hOfn : (O.map Prod.fst).Nodup := by
      refine (List.nodup_map_iff_inj_on hOn).2 fun o ho o' ho' e => ?_
      rw [hOf o ho, hOf o' ho', e]
    have hqO : q ∈ O.map Prod.fst := List.mem_map.2 ⟨(q, .f), (hOm _).2 hqo, rfl⟩
    have hset : ∀ (L : List (Q × Stage)) (v : NDArray K), (L.map Prod.fst).Nodup → (L.map fun o => (bitVec (x o.1) : NDArray K)).set ((L.map Prod.fst).idxOf q) v =
        L.map fun o => if o.1 = q then v else bitVec (x o.1) := by
      intro L v hL
      induction L with
      | nil => rfl
      | cons o L ih =>
        rw [List.map_cons, List.nodup_cons] at hL
        by_cases h : o.1 = q
        · simp only [List.map_cons, ← h, List.idxOf_cons_self, List.set_cons_zero, if_true]
          congr 1
          refine List.map_congr_left fun o' ho' => ?_
          rw [if_neg fun e : o'.1 = o.1 => hL.1 (e ▸ List.mem_map_of_mem ho')]
        · simp only [List.map_cons]
          rw [List.idxOf_cons_ne _ h, List.set_cons_succ, ih hL.2, if_neg h]
    rw [v1, f1]
    simp only [hqO, if_true]
    have v2 : (O.map fun o => if o.1 = q then (bitVec (if x q ≠ 0 then 0 else 1) : NDArray K) else bitVec (x o.1)) = O.map fun o => bitVec (y o.1) := by
      refine List.map_congr_left fun o _ => ?_
      by_cases h : o.1 = q
      · rw [if_pos h, h, hyd, Function.update_self]
        have := hx q
        congr 1
        split <;> omega
      · rw [if_neg h, hyd, Function.update_of_ne h]
    have v3 : (O.map fun o => (bitVec (x o.1) : NDArray K)).set ((O.map Prod.fst).idxOf q)
        (bitVec (if (qubits.map x).getD ([qubits.idxOf q].headD 0) 0 ≠ 0 then 0 else 1)) = O.map fun o => bitVec (y o.1) := by
      rw [hset O _ hOfn, ← v2]
      have : (qubits.map x).getD ([qubits.idxOf q].headD 0) 0 = x q := getD_idxOf (hCq q hqC) x
      simp only [this]
    rw [v3, f3]
    simp only [f2, f4, List.headD_cons]
    rfl

theorem prepareLoop_ok {A : SampleArgs Q K R S σ W} (hE : SampleEnv A) (hsq : IsAbsSq A.sq) (rest : List (Gate Q K)) :
    ∀ pre : List (Gate Q K), (∀ h ∈ pre ++ rest, SampleGate h) → 12 * ((pre ++ rest).map fun g => g.2.length).sum < A.load.fuel →
    ∃ ss, prepareLoop A (pre ++ rest) pre.length rest = some (.ok ss) ∧
      ∀ qubits : List Q, qubits.Nodup → (∀ q ∈ (pre ++ rest).flatMap Prod.snd, q ∈ qubits) → StepsOk A.sq A.load.enum qubits pre rest ss := by
  induction rest with
  | nil => intro pre _ _; exact ⟨[], rfl, fun _ _ _ => by simp [StepsOk]⟩
  | cons g rest ih =>
    intro pre hg hf
    obtain ⟨s, e1, h1⟩ := prepareGate_ok hE hsq hg hf
    have hap : pre ++ g :: rest = (pre ++ [g]) ++ rest := by simp
    obtain ⟨ss, e2, h2⟩ := ih (pre ++ [g]) (by rwa [← hap]) (by rwa [← hap])
    rw [← hap, show (pre ++ [g]).length = pre.length + 1 by simp] at e2
    refine ⟨s :: ss, ?_, fun qubits hn hq => ⟨h1 qubits hn hq, h2 qubits hn (by rwa [← hap])⟩⟩
    simp only [prepareLoop, e1, e2]

theorem allowed_ok {sq : K → R} (hsq : IsAbsSq sq) {circuit : List (Gate Q K)} (hg : ∀ h ∈ circuit, SampleGate h) : allowed sq circuit = .ok true := by
  induction circuit with
  | nil => rfl
  | cons g rest ih =>
    simp only [allowed]
    have hgg := hg g (by simp)
    rw [ih fun h hh => hg h (by simp [hh])]
    split
    · rfl
    · rename_i hl
      rw [(isClassical_square hsq hgg.1.shape).2 (hgg.2.resolve_right fun h => hl h.1)]

end TNCO
