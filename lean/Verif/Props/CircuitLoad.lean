import Verif.Lemmas.CircuitLoad
import Mathlib.Data.Complex.Basic
import Mathlib.Analysis.Real.Sqrt
import Mathlib.Tactic.IntervalCases
import Mathlib.Tactic.Linarith

/-! # C38: the tensor network of a circuit -/

namespace TNCO
variable {Q K : Type} [DecidableEq Q] [Field K] [StarRing K] [DecidableEq K] {S σ W : Type} [Zero W] [Add W] [LT W] [DecidableLT W]

/-- C38: for every circuit (of unitary gates if it is to be simplified or decomposed), every choice of options and all valid states, `load` returns a
network of tensors of dimension 2. Its output indices are those of the open qubits, every other index is in at least two
tensors. Its value, for every value of the output indices, is the
matrix element of the circuit up to a phase `c`, which is 1 if the circuit is not simplified. -/
theorem C38_load (A : LoadArgs Q K S σ W) (hrng : A.g.Ok) (heN : EnumOk A.enumN) (he : EnumOk A.enum) (hr : star A.r * A.r + star A.r * A.r = 1)
    (seed : S) (circuit : List (Gate Q K)) (init fin : PyState Q K) (hg : ∀ g ∈ circuit, IsGate g)
    (hu : A.simplify = true ∨ A.decompose = true → ∀ g ∈ circuit, IsUnitary g)
    (h1 : StateOk A.r (circuit.flatMap Prod.snd) init) (h2 : StateOk A.r (circuit.flatMap Prod.snd) fin)
    (hfuel : 12 * (circuit.map fun g => g.2.length).sum < A.fuel) :
    ∃ arrs inds out, load A seed circuit init fin = some (.ok (arrs, inds, out)) ∧ Consistent (fun _ => 2) arrs inds ∧ (∀ xs ∈ inds, xs.Nodup) ∧
      (∀ q t, (q, t) ∈ out ↔ q ∈ circuit.flatMap Prod.snd ∧ ((t = .i ∧ stateOf A.r init q = none) ∨ (t = .f ∧ stateOf A.r fin q = none))) ∧
      (∀ x ∈ out, x ∈ inds.flatten) ∧ (∀ x ∈ inds.flatten, x ∉ out → 2 ≤ inds.flatten.count x) ∧
      ∃ c : K, star c * c = 1 ∧ (A.simplify = false → c = 1) ∧
        ∀ l : List (Q × Stage), l.Nodup → (∀ x, x ∈ l ↔ x ∈ inds.flatten ∧ x ∉ out) → ∀ f : Q × Stage → ℕ, (∀ x ∈ out, f x < 2) →
          amplitude circuit (uniqueEverseen (circuit.flatMap Prod.snd)) (stateOf A.r init) (stateOf A.r fin) (fun q => f (q, .i)) (fun q => f (q, .f)) =
            c * einsum (fun _ => 2) l ((arrs.zip inds).map fun t k => t.1.get (t.2.map k)) f := by
  have hqn := uniqueEverseen_nodup (circuit.flatMap Prod.snd)
  have hq0 : ∀ q, q ∈ uniqueEverseen (circuit.flatMap Prod.snd) ↔ q ∈ circuit.flatMap Prod.snd := fun q => mem_uniqueEverseen
  have hql := qubits_length circuit
  have hcl : ∀ l : List (Gate Q K), (∀ g ∈ l, IsGate g) → l.length ≤ (l.map fun g => g.2.length).sum := by
    intro l hl
    induction l with
    | nil => simp
    | cons g l ih =>
      have := List.length_pos_iff.2 (hl g (by simp)).nonempty
      have := ih fun g hg => hl g (by simp [hg])
      simp only [List.length_cons, List.map_cons, List.sum_cons]
      omega
  have hsim : ∃ all s', (if A.simplify then simplifyAll A.reseed A.useMatrix A.fuel seed circuit else some (.ok (circuit, seed))) =
      some (.ok (all, s')) ∧ all.Sublist circuit ∧ ∃ c : K, star c * c = 1 ∧ (A.simplify = false → c = 1) ∧
        ∀ (ψ : (Q → ℕ) → K) (x : Q → ℕ), BitVals x → runCircuit circuit ψ x = c * runCircuit all ψ x := by
    cases hs : A.simplify with
    | false => exact ⟨circuit, seed, rfl, List.Sublist.refl _, 1, by simp, fun _ => rfl, fun ψ x _ => (one_mul _).symm⟩
    | true =>
      have := hcl circuit hg
      obtain ⟨all, s', a1, a2, -, -, c, a3, a4⟩ := C37_simplify A.reseed A.useMatrix seed circuit
        (fun g hgm => ⟨hg g hgm, hu (Or.inl hs) g hgm⟩) A.fuel (by omega)
      exact ⟨all, s', a1, a2, c, a3, by simp, a4⟩
  obtain ⟨all, s', e1, hsub, c, hc1, hc2, hc3⟩ := hsim
  have hsubf : (all.flatMap Prod.snd).Sublist (circuit.flatMap Prod.snd) := (hsub.map Prod.snd).flatten
  unfold load
  simp only [e1]
  set qubits := uniqueEverseen (circuit.flatMap Prod.snd) with hqd
  set eyes := qubits.filter fun q => q ∉ all.flatMap Prod.snd with heyes
  set gates := all ++ eyes.map eyeGate with hgates
  have hgg : ∀ g ∈ gates, IsGate g := by
    intro g hgm
    rcases List.mem_append.1 hgm with h | h
    · exact hg g (hsub.subset h)
    · obtain ⟨q, -, rfl⟩ := List.mem_map.1 h
      exact eye_isGate q
  have hgu : A.decompose = true → ∀ g ∈ gates, IsGate g ∧ IsUnitary g := by
    intro hd g hgm
    refine ⟨hgg g hgm, ?_⟩
    rcases List.mem_append.1 hgm with h | h
    · exact hu (Or.inr hd) g (hsub.subset h)
    · obtain ⟨q, -, rfl⟩ := List.mem_map.1 h
      exact eye_isUnitary q
  have hq : ∀ q, q ∈ qubits ↔ q ∈ gates.flatMap Prod.snd := by
    intro q
    rw [hgates, List.flatMap_append, List.mem_append]
    constructor
    · intro h
      by_cases hm : q ∈ all.flatMap Prod.snd
      · exact Or.inl hm
      · exact Or.inr (List.mem_flatMap.2 ⟨eyeGate q, List.mem_map.2 ⟨q, List.mem_filter.2 ⟨h, by simpa using hm⟩, rfl⟩, by simp [eyeGate]⟩)
    · rintro (h | h)
      · exact (hq0 q).2 (hsubf.subset h)
      · obtain ⟨g, hgm, hqg⟩ := List.mem_flatMap.1 h
        obtain ⟨q', hq', rfl⟩ := List.mem_map.1 hgm
        obtain rfl : q = q' := by simpa [eyeGate] using hqg
        exact (List.mem_filter.1 hq').1
  have hstate : ∀ {st : PyState Q K}, StateOk A.r (circuit.flatMap Prod.snd) st → StateOk A.r qubits st := by
    intro st h
    cases st with
    | none => trivial
    | str s => exact h
    | other => exact h
    | dict l =>
      refine ⟨h.1, fun e hel => ?_⟩
      have := h.2 e hel
      cases hv : e.2 with
      | token s => rw [hv] at this; exact this
      | vec a => rw [hv] at this; exact fun hm => this ((hq0 _).1 hm)
  obtain ⟨Si, ai, Sf, af, e2, hi, hf⟩ := rawNetwork_ok hr hgg hqn (hstate h1) (hstate h2)
  rw [e2]
  simp only
  set op := rawOpen qubits Si Sf with hop
  set ts := rawTs gates Si ai Sf af with hts
  have N0 := raw_netValue hgg hqn hq hi hf
  -- sizes
  have hSi : Si.length ≤ qubits.length := (List.subperm_of_subset hi.nodup fun q h => ((hi.mem q).1 h).1).length_le
  have hSf : Sf.length ≤ qubits.length := (List.subperm_of_subset hf.nodup fun q h => ((hf.mem q).1 h).1).length_le
  have hopl : op.length ≤ 2 * qubits.length := by
    refine (List.length_filter_le _ _).trans ?_
    rw [List.length_flatMap]
    simp only [List.length_cons, List.length_nil, List.map_const', List.sum_replicate, smul_eq_mul]
    omega
  have hall : (all.map fun g => g.2.length).sum ≤ (circuit.map fun g => g.2.length).sum := by
    rw [← List.length_flatMap, ← List.length_flatMap]
    exact hsubf.length_le
  have hall' := hcl all fun g h => hg g (hsub.subset h)
  have heye : eyes.length ≤ qubits.length := List.length_filter_le _ _
  have hgl : gates.length = all.length + eyes.length := by simp [hgates]
  have hgs : (gates.map fun g => g.2.length).sum = (all.map fun g => g.2.length).sum + eyes.length := by
    simp [hgates, Function.comp_def, eyeGate]
  obtain ⟨hs1, hs2⟩ := rawTs_size gates Si ai Sf af
  rw [← hts] at hs1 hs2
  have htl : ts.length ≤ 4 * (circuit.map fun g => g.2.length).sum := by omega
  have hti : (ts.map Prod.snd).flatten.length ≤ 6 * (circuit.map fun g => g.2.length).sum := by omega
  -- decomposition
  have hdec : ∃ F, (if A.decompose then decomposeOpen A.fuel ts op else some (.ok ts)) = some (.ok F) ∧
      NetValue F op (fun f => amplitude gates qubits (stateOf A.r init) (stateOf A.r fin) (fun q => f (q, .i)) fun q => f (q, .f)) ∧
      F.length ≤ ts.length + op.length ∧ ∀ x ∈ (F.map Prod.snd).flatten, x ∈ (ts.map Prod.snd).flatten := by
    cases hd : A.decompose with
    | false => exact ⟨ts, rfl, N0, by omega, fun x h => h⟩
    | true =>
      have hcons : Consistent (fun _ => 2) (ts.map Prod.fst) (ts.map Prod.snd) := by
        refine ⟨by simp, fun t ht => ?_⟩
        rw [zip_fst_snd] at ht
        exact N0.shape t ht
      obtain ⟨res, hres⟩ := C33_network_ok (fun _ => 2) A.fuel (ts.map Prod.fst) (ts.map Prod.snd) hcons
        (fun xs hxs => by obtain ⟨t, ht, rfl⟩ := List.mem_map.1 hxs; exact N0.nodup t ht) (fun _ _ => by norm_num) (fun xs hxs => by
          have := (List.subperm_of_subset (l₁ := xs) (l₂ := (ts.map Prod.snd).flatten)
            (by obtain ⟨t, ht, rfl⟩ := List.mem_map.1 hxs; exact N0.nodup t ht) fun x hx => List.mem_flatten.2 ⟨xs, hxs, hx⟩).length_le
          omega)
      have hF : ∃ F, decomposeOpen A.fuel ts op = some (.ok F) := by
        unfold decomposeOpen
        rw [hres]
        exact ⟨_, rfl⟩
      obtain ⟨F, hF⟩ := hF
      obtain ⟨N, hsubF⟩ := decompose_netValue (hgu hd) hqn hq hi hf hF
      exact ⟨F, hF, N, decomposeOpen_length N0.shape N0.nodup hF, hsubF⟩
  obtain ⟨F, e3, N, hFl, hFs⟩ := hdec
  rw [e3]
  simp only
  have hfin : ∃ arrs inds out, (match A.fuse with
        | none => some (.ok (F.map Prod.fst, F.map Prod.snd, op.toFinset))
        | some w =>
          if 0 < w then fuseNetwork A.g A.enumN A.enum A.log2 A.fuel (A.start s') F op w
          else some (.ok (F.map Prod.fst, F.map Prod.snd, op.toFinset))) = some (Except.ok (ε := PyErr) (arrs, inds, out)) ∧
      (∀ x, x ∈ out ↔ x ∈ op) ∧ arrs.length = inds.length ∧
      NetValue (arrs.zip inds) op (fun f => amplitude gates qubits (stateOf A.r init) (stateOf A.r fin) (fun q => f (q, .i)) fun q => f (q, .f)) := by
    have hplain : ∃ arrs inds out, some (Except.ok (ε := PyErr) (F.map Prod.fst, F.map Prod.snd, op.toFinset)) = some (.ok (arrs, inds, out)) ∧
        (∀ x, x ∈ out ↔ x ∈ op) ∧ arrs.length = inds.length ∧ NetValue (arrs.zip inds) op
          (fun f => amplitude gates qubits (stateOf A.r init) (stateOf A.r fin) (fun q => f (q, .i)) fun q => f (q, .f)) :=
      ⟨_, _, _, rfl, by simp, by simp, by rw [zip_fst_snd]; exact N⟩
    split
    · exact hplain
    · split
      · refine fuse_netValue hrng heN he N ?_
        have := (List.subperm_of_subset (uniqueEverseen_nodup (F.map Prod.snd).flatten) (l₂ := (ts.map Prod.snd).flatten)
          fun x hx => hFs x (mem_uniqueEverseen.1 hx)).length_le
        omega
      · exact hplain
  obtain ⟨arrs, inds, out, e4, hout, hlen, N'⟩ := hfin
  have hsnd : (arrs.zip inds).map Prod.snd = inds := List.map_snd_zip (by omega)
  refine ⟨arrs, inds, out, e4, ⟨hlen, N'.shape⟩, fun xs hxs => ?_, fun q t => ?_, fun x hx => ?_, fun x hx hxo => ?_, c, hc1, hc2, fun l nl hl f hfb => ?_⟩
  · rw [← hsnd] at hxs
    obtain ⟨t, ht, rfl⟩ := List.mem_map.1 hxs
    exact N'.nodup t ht
  · rw [hout, hop, mem_openQubits, hq0]
    refine and_congr_right fun hm => ?_
    have hm := (hq0 q).2 hm
    have k1 : q ∉ Si ↔ stateOf A.r init q = none := by rw [hi.mem]; simp [hm]
    have k2 : q ∉ Sf ↔ stateOf A.r fin q = none := by rw [hf.mem]; simp [hm]
    rw [k1, k2]
  · have := N'.sub x ((hout x).1 hx)
    rwa [hsnd] at this
  · have := N'.two x (by rw [hsnd]; exact hx) fun h => hxo ((hout x).2 h)
    rw [hsnd] at this
    convert this
  · have := N'.value l nl (fun x => by rw [hsnd, hl, hout]) f fun x hx => hfb x ((hout x).2 hx)
    unfold einsum
    simp only [List.map_map, Function.comp_def]
    rw [this]
    unfold amplitude
    have hb : ∀ x : Q → ℕ, (∀ q, q ∉ qubits → x q = 0) → (∀ q ∈ qubits, x q < 2) → BitVals x := by
      intro x hx1 hx2 q
      by_cases hm : q ∈ qubits
      · exact hx2 q hm
      · rw [hx1 q hm]; norm_num
    rw [← sumOver_mul_left (fun _ => c) _ fun _ _ => rfl]
    refine sumOver_congr fun x hx1 hx2 => ?_
    have hx := hb x hx1 hx2
    rw [hc3 _ x hx, hgates, runCircuit_append, run_eyes eyes _ hx]
    ring

/-- C38: other states raise an exception: unknown tokens, arrays of another shape or norm, other types. -/
theorem C38_rejects (A : LoadArgs Q K S σ W) (seed : S) (circuit : List (Gate Q K)) (init fin : PyState Q K) (hg : ∀ g ∈ circuit, IsGate g)
    (hu : A.simplify = true → ∀ g ∈ circuit, IsUnitary g) (hd1 : ∀ l, init = .dict l → (l.map Prod.fst).Nodup)
    (hd2 : ∀ l, fin = .dict l → (l.map Prod.fst).Nodup) (h : ¬ StateOk A.r (uniqueEverseen (circuit.flatMap Prod.snd)) init ∨
      ¬ StateOk A.r (uniqueEverseen (circuit.flatMap Prod.snd)) fin) (hfuel : circuit.length < A.fuel) :
    ∃ e, (e = .valueError ∨ e = .notImplemented) ∧ load A seed circuit init fin = some (.error e) := by
  have hsim : ∃ all s', (if A.simplify then simplifyAll A.reseed A.useMatrix A.fuel seed circuit else some (.ok (circuit, seed))) =
      some (.ok (all, s')) ∧ all.Sublist circuit := by
    cases hs : A.simplify with
    | false => exact ⟨circuit, seed, rfl, List.Sublist.refl _⟩
    | true =>
      obtain ⟨all, s', a1, a2, -⟩ := C37_simplify A.reseed A.useMatrix seed circuit (fun g hgm => ⟨hg g hgm, hu hs g hgm⟩) A.fuel hfuel
      exact ⟨all, s', a1, a2⟩
  obtain ⟨all, s', e1, hsub⟩ := hsim
  unfold load
  simp only [e1]
  unfold rawNetwork
  rw [buildLoop_ok fun g hgm => ?_]
  · simp only
    cases hi : getState A.r (uniqueEverseen (circuit.flatMap Prod.snd)) .i init with
    | error e =>
      by_cases h1 : StateOk A.r (uniqueEverseen (circuit.flatMap Prod.snd)) init
      · rcases getState_cases A.r (uniqueEverseen (circuit.flatMap Prod.snd)) .i init with ⟨s, hs⟩ | ⟨e', he', hs⟩
        · rw [hs] at hi; cases hi
        · rw [hs] at hi
          obtain rfl : e' = e := by simpa using hi
          exact ⟨e', he', rfl⟩
      · obtain ⟨e', he', hs⟩ := getState_error (tag := .i) hd1 h1
        rw [hs] at hi
        obtain rfl : e' = e := by simpa using hi
        exact ⟨e', he', rfl⟩
    | ok si =>
      have h2 : ¬ StateOk A.r (uniqueEverseen (circuit.flatMap Prod.snd)) fin := h.resolve_left fun h1 => by
        obtain ⟨e', -, hs⟩ := getState_error (tag := .i) hd1 h1
        rw [hs] at hi
        cases hi
      obtain ⟨e', he', hs⟩ := getState_error (tag := .f) hd2 h2
      rw [hs]
      exact ⟨e', he', rfl⟩
  · rcases List.mem_append.1 hgm with h | h
    · exact hg g (hsub.subset h)
    · obtain ⟨q, -, rfl⟩ := List.mem_map.1 h
      exact eye_isGate q

/-- For the examples: no simplification, numbers are listed in order. -/
def plainArgs (K : Type) (r : K) (simplify decompose : Bool) (fuse : Option ℕ) (enum : Finset (ℕ × Stage) → List (ℕ × Stage)) (fuel : ℕ) :
    LoadArgs ℕ K Unit Unit ℕ :=
  ⟨simplify, true, decompose, fuse, r, id, id, ⟨fun _ s => (0, s), fun _ s => ((0, 1), s)⟩, fun s => s.sort (· ≤ ·), enum, Nat.clog 2, fuel⟩

/-- The matrix `|00⟩⟨00| + |00⟩⟨11| + |11⟩⟨00| + |11⟩⟨11|`, which is not unitary. -/
def matBell : NDArray ℚ := ⟨[4, 4], fun k => if k = 0 ∨ k = 3 ∨ k = 12 ∨ k = 15 then 1 else 0⟩

/-- The number that a network without output indices stands for, if its indices are those of `l`. -/
def closedValue (l : List (ℕ × Stage)) (r : Option (Except PyErr (List (NDArray ℚ) × List (List (ℕ × Stage)) × Finset (ℕ × Stage)))) : Option ℚ :=
  match r with
  | some (.ok (arrs, inds, out)) =>
    if out = ∅ ∧ (∀ x ∈ l, x ∈ inds.flatten) ∧ ∀ x ∈ inds.flatten, x ∈ l then
      some (einsum (fun _ => 2) l ((arrs.zip inds).map fun t k => t.1.get (t.2.map k)) fun _ => 0)
    else none
  | _ => none

/-- C38 fails for matrices that are not unitary, which `load` does not exclude: with `decompose_hyper_inds` the index between the two gates
disappears, and with it a factor 2. Without it the value is right. -/
theorem C38_violated (enum : Finset (ℕ × Stage) → List (ℕ × Stage)) :
    closedValue [(0, .i), (0, .f)] (load (plainArgs ℚ 1 false true none enum 50) () [(matBell, [0, 1]), (matBell, [0, 1])] (.str "0") (.str "0")) = some 1 ∧
    closedValue [(0, .i), (0, .f), (1, .i), (1, .f), (0, .num 1), (1, .num 1)]
      (load (plainArgs ℚ 1 false false none enum 50) () [(matBell, [0, 1]), (matBell, [0, 1])] (.str "0") (.str "0")) = some 2 ∧
    amplitude [(matBell, [0, 1]), (matBell, [0, 1])] [0, 1] (stateOf 1 (.str "0")) (stateOf 1 (.str "0")) (fun _ => 0) (fun _ => 0) = 2 := by
  have key : ∀ d circuit init fin, load (plainArgs ℚ 1 false d none enum 50) () circuit init fin =
      load (plainArgs ℚ 1 false d none (fun _ => []) 50) () circuit init fin := by
    intro d circuit init fin
    unfold load
    simp only [plainArgs]
    rfl
  refine ⟨?_, ?_, ?_⟩
  · rw [key]
    decide +kernel
  · rw [key]
    decide +kernel
  · decide +kernel

/-- The gate CNOT. -/
def matCX : NDArray ℂ := ⟨[4, 4], fun k => if k = 0 ∨ k = 5 ∨ k = 11 ∨ k = 14 then 1 else 0⟩

open Classical in
/-- Two qubits, a CNOT and its inverse, with simplification, decomposition and fusion; one qubit starts in `|+⟩`, the other is open. -/
example (enum : Finset (ℕ × Stage) → List (ℕ × Stage)) (he : EnumOk enum) : ∃ r : ℂ,
    let A := plainArgs ℂ r true true (some 3) enum 100
    let circuit : List (Gate ℕ ℂ) := [(matCX, [0, 1]), (matCX, [1, 0]), (matCX, [1, 0])]
    A.g.Ok ∧ EnumOk A.enumN ∧ EnumOk A.enum ∧ star A.r * A.r + star A.r * A.r = 1 ∧ (∀ g ∈ circuit, IsGate g) ∧ (∀ g ∈ circuit, IsUnitary g) ∧
      StateOk A.r (circuit.flatMap Prod.snd) (.dict [(0, .token "+"), (7, .token "1")]) ∧ StateOk A.r (circuit.flatMap Prod.snd) .none ∧
      12 * (circuit.map fun g => g.2.length).sum < A.fuel := by
  refine ⟨((Real.sqrt 2 / 2 : ℝ) : ℂ), ?_⟩
  have hg : ∀ a b : ℕ, a ≠ b → IsGate (matCX, [a, b]) ∧ IsUnitary (matCX, [a, b]) := by
    intro a b hab
    refine ⟨⟨by simp, by simp [hab], rfl⟩, fun r hr c hc => ?_⟩
    simp only [List.length_cons, List.length_nil] at hr hc ⊢
    norm_num at hr hc
    interval_cases r <;> interval_cases c <;> simp [Finset.sum_range_succ, matCX, NDArray.get, ravel]
  refine ⟨⟨fun n s h => h, fun n s h => ⟨by simp [plainArgs]; omega, by simp [plainArgs]; omega, by simp [plainArgs]⟩⟩,
    fun s => ⟨Finset.sort_nodup _ _, fun x => Finset.mem_sort _⟩, he, ?_, fun g hgm => ?_, fun g hgm => ?_, ⟨by decide, ?_⟩, trivial, ?_⟩
  · simp only [plainArgs, Complex.star_def, Complex.conj_ofReal]
    rw [← Complex.ofReal_mul, ← Complex.ofReal_add, show Real.sqrt 2 / 2 * (Real.sqrt 2 / 2) + Real.sqrt 2 / 2 * (Real.sqrt 2 / 2) = 1 by
      have := Real.mul_self_sqrt (show (0 : ℝ) ≤ 2 by norm_num)
      linarith]
    norm_num
  · simp only [List.mem_cons, List.not_mem_nil, or_false] at hgm
    rcases hgm with rfl | rfl | rfl
    · exact (hg 0 1 (by norm_num)).1
    · exact (hg 1 0 (by norm_num)).1
    · exact (hg 1 0 (by norm_num)).1
  · simp only [List.mem_cons, List.not_mem_nil, or_false] at hgm
    rcases hgm with rfl | rfl | rfl
    · exact (hg 0 1 (by norm_num)).2
    · exact (hg 1 0 (by norm_num)).2
    · exact (hg 1 0 (by norm_num)).2
  · intro e hel
    simp only [List.mem_cons, List.not_mem_nil, or_false] at hel
    rcases hel with rfl | rfl <;> simp
  · simp [plainArgs]

end TNCO
