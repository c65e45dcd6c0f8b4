import Verif.Lemmas.SampleQuantum
import Verif.Props.CircuitLoad
import Verif.Props.Contract

/-! # The networks of the sampler -/

namespace TNCO
variable {Q K R : Type} [DecidableEq Q] [Field K] [StarRing K] [DecidableEq K] [Field R] [LinearOrder R] [IsStrictOrderedRing R]

/-- The values of a network with its output indices closed by basis vectors. -/
theorem amplitudeOf_value {enum : Finset (Q × Stage) → List (Q × Stage)} (he : EnumOk enum) {path : List (ℕ × ℕ)} {inds : List (List (Q × Stage))}
    {arrs : List (NDArray K)} {out : Finset (Q × Stage)} {O l : List (Q × Stage)} (hc : Consistent (fun _ => 2) arrs inds) (hn : ∀ xs ∈ inds, xs.Nodup)
    (hout : ∀ x ∈ out, x ∈ inds.flatten) (h2 : ∀ x ∈ inds.flatten, x ∉ out → 2 ≤ inds.flatten.count x) (hO : O.Nodup) (hOm : ∀ x, x ∈ O ↔ x ∈ out)
    (hp : ValidPath (inds ++ O.map fun x => [x]).length path) (hpl : path.length + 1 = (inds ++ O.map fun x => [x]).length)
    (hl : l.Nodup) (hlm : ∀ x, x ∈ l ↔ x ∈ inds.flatten ∧ x ∉ out) {k0 : Q × Stage → ℕ} (hk : ∀ x ∈ O, k0 x < 2) :
    amplitudeOf enum path (inds ++ O.map fun x => [x]) (arrs ++ O.map fun x => bitVec (k0 x)) =
      .ok (einsum (fun _ => 2) l ((arrs.zip inds).map fun t k => t.1.get (t.2.map k)) k0) := by
  set I := inds ++ O.map fun x => [x] with hI
  set V := arrs ++ O.map fun x => (bitVec (k0 x) : NDArray K) with hV
  have hIf : I.flatten = inds.flatten ++ O := by
    rw [hI, List.flatten_append]
    congr 1
    have : ∀ L : List (Q × Stage), (L.map fun x => [x]).flatten = L := by
      intro L
      induction L with
      | nil => rfl
      | cons a t ih => rw [List.map_cons, List.flatten_cons, ih]; rfl
    exact this O
  have hzip : V.zip I = arrs.zip inds ++ O.map fun x => ((bitVec (k0 x) : NDArray K), [x]) := by
    rw [hV, hI, List.zip_append hc.1, List.zip_map', ]
  have hcV : Consistent (fun _ => 2) V I := by
    refine ⟨by simp [hV, hI, hc.1], fun t ht => ?_⟩
    rw [hzip] at ht
    rcases List.mem_append.1 ht with h | h
    · exact hc.2 t h
    · obtain ⟨x, -, rfl⟩ := List.mem_map.1 h
      rfl
  have hnI : ∀ xs ∈ I, xs.Nodup := by
    intro xs hx
    rcases List.mem_append.1 hx with h | h
    · exact hn xs h
    · obtain ⟨x, -, rfl⟩ := List.mem_map.1 h
      simp
  obtain ⟨⟨inds', outR, arrs'⟩, hr⟩ := (C31_succeeds enum he path I (some []) V none hnI (fun _ => 2) hcV (by simp) (by simp)).1 hp
  have hcount : ∀ x ∈ I.flatten, x ∉ outR → 2 ≤ I.flatten.count x := by
    intro x hx _
    rw [hIf, List.count_append]
    by_cases hxo : x ∈ out
    · have a := List.count_pos_iff.2 (hout x hxo)
      have b := List.count_pos_iff.2 ((hOm x).2 hxo)
      omega
    · rw [hIf, List.mem_append] at hx
      rcases hx with h | h
      · have := h2 x h hxo
        omega
      · exact absurd ((hOm x).1 h) hxo
  obtain ⟨d, zs, az, a1, rfl, rfl, a2, a3, a4, a5, a6⟩ := C31_complete enum he path I (some []) V none hnI _ _ _ hr hpl (by convert hcount)
  have hz : ∀ x, x ∉ outR := fun x hx => by simpa using (a4 x).1 hx
  have hzs : zs = [] := List.eq_nil_iff_forall_not_mem.2 fun x hx => hz x ((a3 x).1 hx)
  subst hzs
  unfold amplitudeOf
  rw [hr]
  simp only [a5, List.map_nil, if_true, Except.ok.injEq]
  have hd : ∀ x ∈ I.flatten, d x = 2 := by
    intro x hx
    obtain ⟨xs, hxs, hxx⟩ := List.mem_flatten.1 hx
    obtain ⟨i, hi, rfl⟩ := List.getElem_of_mem hxs
    have hi' : i < (V.zip I).length := by rw [List.length_zip, hcV.1, Nat.min_self]; exact hi
    have e1 := a1.2 _ (List.getElem_mem hi')
    have e2 := hcV.2 _ (List.getElem_mem hi')
    rw [e1] at e2
    simp only [List.getElem_zip] at e2
    exact List.map_inj_left.1 e2 x hxx
  have hB : (l ++ O).Nodup := List.nodup_append'.2 ⟨hl, hO, fun x h1 h2 => ((hlm x).1 h1).2 ((hOm x).1 h2)⟩
  have hBm : ∀ x, x ∈ l ++ O ↔ x ∈ I.flatten ∧ x ∉ outR := by
    intro x
    rw [hIf, List.mem_append, List.mem_append, hlm x, hOm x]
    constructor
    · rintro (h | h)
      · exact ⟨Or.inl h.1, hz x⟩
      · exact ⟨Or.inr h, hz x⟩
    · rintro ⟨h | h, -⟩
      · by_cases hx : x ∈ out
        · exact Or.inr hx
        · exact Or.inl ⟨h, hx⟩
      · exact Or.inr h
  have := a6 (l ++ O) hB hBm k0 fun x hx => absurd hx (hz x)
  rw [List.map_nil] at this
  rw [this]
  unfold einsum
  rw [sumOver_dims (d' := fun _ => 2) fun x hx => hd x ((hBm x).1 hx).1]
  rw [hzip, List.map_append, ← sumOver_fixed hB (List.Perm.refl _) _ k0 hk]
  refine sumOver_congr fun k h1 h2 => ?_
  rw [List.map_append, List.prod_append, List.map_map, List.map_map]
  have hprod : ∀ O' : List (Q × Stage), (∀ x ∈ O', x ∈ O) → ((O'.map fun x => ((bitVec (k0 x) : NDArray K), [x])).map ((fun T : (Q × Stage → ℕ) → K => T k) ∘
      fun t k => t.1.get (t.2.map k))).prod = if ∀ x ∈ O', k x = k0 x then 1 else 0 := by
    intro O' hO'
    induction O' with
    | nil => simp
    | cons x O' ih =>
      rw [List.map_cons, List.map_cons, List.prod_cons, ih fun y hy => hO' y (by simp [hy])]
      have b1 : k x < 2 := h2 x (List.mem_append.2 (Or.inr (hO' x (by simp))))
      have b2 : k0 x < 2 := hk x (hO' x (by simp))
      have : (bitVec (k0 x) : NDArray K).get [k x] = if k x = k0 x then 1 else 0 := by
        interval_cases k x <;> interval_cases k0 x <;> simp [bitVec, NDArray.get, ravel]
      simp only [Function.comp, List.map_cons, List.map_nil, this, List.forall_mem_cons]
      by_cases e : k x = k0 x
      · rw [if_pos e, one_mul]
        simp only [e, true_and]
      · rw [if_neg e, zero_mul, if_neg fun h => e h.1]
  rw [hprod O fun _ h => h]
  by_cases e : ∀ x ∈ O, k x = k0 x
  · rw [if_pos e, if_pos e, mul_one]
  · rw [if_neg e, if_neg e, mul_zero]

omit [DecidableEq K] in
/-- Amplitudes between the state 0 and a basis state. -/
theorem amplitude_zero (r : K) (gates : List (NDArray K × List Q)) (hn : ∀ g ∈ gates, g.2.Nodup) {qubits : List Q}
    (hq : ∀ q ∈ gates.flatMap Prod.snd, q ∈ qubits) {x x0 : Q → ℕ} (hx : BitVals x)
    (h0 : ∀ q ∈ qubits, q ∉ gates.flatMap Prod.snd → x q = 0) :
    amplitude gates (uniqueEverseen (gates.flatMap Prod.snd)) (stateOf r (.str "0")) (stateOf r .none) x0 x = runCircuit gates (zeroState qubits) x := by
  set T := uniqueEverseen (gates.flatMap Prod.snd) with hT
  have hTn : T.Nodup := uniqueEverseen_nodup _
  have hTm : ∀ q, q ∈ T ↔ q ∈ gates.flatMap Prod.snd := fun q => mem_uniqueEverseen
  rw [run_zero gates qubits T hTm fun q hm => hq q ((hTm q).1 hm), if_pos h0, one_mul]
  unfold amplitude
  have e1 : (productState T (stateOf r (.str "0") : Q → Option (ℕ → K)) x0) = zeroState T := by
    funext y
    unfold productState zeroState stateOf tokenVec
    simp only [List.lookup, Option.map_some, beq_self_eq_true, factorAt]
    clear_value T
    clear hT hTn hTm
    induction T with
    | nil => simp
    | cons q T ih =>
      rw [List.map_cons, List.prod_cons, ih]
      by_cases e : y q = 0 <;> simp [e]
  have e2 : ∀ y, productState T (fun q => ((stateOf r .none : Q → Option (ℕ → K)) q).map fun b k => star (b k)) x y =
      if ∀ q ∈ T, y q = x q then (1 : K) else 0 := by
    intro y
    unfold productState stateOf
    simp only [Option.map_none, factorAt]
    clear_value T
    clear hT hTn hTm e1
    induction T with
    | nil => simp
    | cons q T ih =>
      rw [List.map_cons, List.prod_cons, ih]
      by_cases e : y q = x q <;> simp [e]
  rw [e1]
  simp only [e2, ite_mul, one_mul, zero_mul]
  rw [sumOver_pick hTn _ _ x fun q _ => hx q]
  refine run_depends gates T hn (fun q h => (hTm q).2 h) _ (fun y z h => ?_) _ _ fun q h => over_mem h
  unfold zeroState
  have : (∀ q ∈ T, y q = 0) ↔ ∀ q ∈ T, z q = 0 := ⟨fun h' q hq => (h q hq).symm.trans (h' q hq), fun h' q hq => (h q hq).trans (h' q hq)⟩
  simp only [this]

end TNCO
