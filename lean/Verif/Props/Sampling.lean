import Verif.Lemmas.SampleCount
import Mathlib.Data.Complex.Basic
import Mathlib.Analysis.Real.Sqrt
import Mathlib.Tactic.FinCases

/-! # C39 and C40: sampling bitstrings -/

namespace TNCO
variable {Q K R : Type} [DecidableEq Q] [Field K] [StarRing K] [DecidableEq K] [Field R] [LinearOrder R] [IsStrictOrderedRing R]

section
variable {S σ W : Type} [Zero W] [Add W] [LT W] [DecidableLT W]

theorem prepare_ok {A : SampleArgs Q K R S σ W} (hE : SampleEnv A) (hsq : IsAbsSq A.sq) {circuit : List (Gate Q K)} (hg : ∀ g ∈ circuit, SampleGate g)
    (hfuel : 12 * (circuit.map fun g => g.2.length).sum < A.load.fuel) {order : Option (List Q)}
    (ho : ∀ o, order = some o → ∀ q, q ∈ o ↔ q ∈ circuit.flatMap Prod.snd) :
    ∃ steps, prepare A circuit order = some (.ok (steps, (circuit.flatMap Prod.snd).toFinset)) ∧
      ∀ qubits : List Q, qubits.Nodup → (∀ q ∈ circuit.flatMap Prod.snd, q ∈ qubits) → StepsOk A.sq A.load.enum qubits [] circuit steps := by
  obtain ⟨ss, e, h⟩ := prepareLoop_ok hE hsq circuit [] (by simpa using hg) (by simpa using hfuel)
  refine ⟨ss, ?_, fun qubits hn hq => h qubits hn (by simpa using hq)⟩
  unfold prepare
  rw [allowed_ok hsq hg]
  have : (order.all fun o => o.toFinset = (circuit.flatMap Prod.snd).toFinset) = true := by
    cases order with
    | none => rfl
    | some o =>
      simp only [Option.all_some, decide_eq_true_eq]
      ext q
      rw [List.mem_toFinset, List.mem_toFinset]
      exact ho o rfl q
  simp only [this, if_true]
  rw [List.nil_append, List.length_nil] at e
  rw [e]

theorem born_nil {sq : K → R} (A : IsAbsSq sq) (qubits : List Q) (x : Q → ℕ) : born sq [] qubits x = if ∀ q ∈ qubits, x q = 0 then 1 else 0 := by
  change sq (zeroState qubits x) = _
  unfold zeroState
  split
  · exact A.eq_one.2 (by simp)
  · exact A.eq_zero rfl

/-- C39, expected values: `sample` accepts every circuit of one-qubit unitaries and classical operations. The result of a run, if each comparison with a random
number is a coin of that bias, is a bitstring drawn with the probabilities of Born's rule: every function of the result has the expected value
that it has under this rule. In particular, errors such as a division by zero have probability 0. -/
theorem C39_expected (A : SampleArgs Q K R S σ W) (hE : SampleEnv A) (hsq : IsAbsSq A.sq) (circuit : List (Gate Q K)) (hg : ∀ g ∈ circuit, SampleGate g)
    (hfuel : 12 * (circuit.map fun g => g.2.length).sum < A.load.fuel) (order : Option (List Q))
    (ho : ∀ o, order = some o → ∀ q, q ∈ o ↔ q ∈ circuit.flatMap Prod.snd) :
    ∃ steps, prepare A circuit order = some (.ok (steps, (circuit.flatMap Prod.snd).toFinset)) ∧
      ∀ qubits : List Q, qubits.Nodup → (∀ q, q ∈ qubits ↔ q ∈ circuit.flatMap Prod.snd) → ∀ f : Except PyErr (List ℕ) → R,
        Dist.expect (runSteps Dist.flip A.sq A.load.enum qubits steps (List.replicate qubits.length 0)) f =
          sumOver (fun _ => 2) qubits (fun x => born A.sq circuit qubits x * f (.ok (qubits.map x))) fun _ => 0 := by
  obtain ⟨steps, e, h⟩ := prepare_ok hE hsq hg hfuel ho
  refine ⟨steps, e, fun qubits hn hq f => ?_⟩
  have := run_expect hsq hn f circuit [] steps (by simpa using hg) (by simpa using fun q h => (hq q).2 h) (h qubits hn fun q h => (hq q).2 h)
  rw [List.nil_append] at this
  rw [← this]
  simp only [born_nil hsq, ite_mul, one_mul, zero_mul]
  rw [sumOver_pick hn _ _ (fun _ => 0) fun _ _ => by omega]
  congr 2
  rw [List.eq_replicate_iff.2 ⟨List.length_map .., fun b hb => ?_⟩]
  obtain ⟨q, hm, rfl⟩ := List.mem_map.1 hb
  exact over_mem hm

/-- C39, probabilities: each bitstring is drawn with the squared modulus of its amplitude, errors are drawn with probability 0, and the probabilities
add up to 1. -/
theorem C39_born (A : SampleArgs Q K R S σ W) (hE : SampleEnv A) (hsq : IsAbsSq A.sq) (circuit : List (Gate Q K)) (hg : ∀ g ∈ circuit, SampleGate g)
    (hfuel : 12 * (circuit.map fun g => g.2.length).sum < A.load.fuel) (order : Option (List Q))
    (ho : ∀ o, order = some o → ∀ q, q ∈ o ↔ q ∈ circuit.flatMap Prod.snd) :
    ∃ steps, prepare A circuit order = some (.ok (steps, (circuit.flatMap Prod.snd).toFinset)) ∧
      ∀ qubits : List Q, qubits.Nodup → (∀ q, q ∈ qubits ↔ q ∈ circuit.flatMap Prod.snd) →
        (∀ x, BitVals x → Dist.prob (runSteps Dist.flip A.sq A.load.enum qubits steps (List.replicate qubits.length 0)) (fun r => r.toOption = some (qubits.map x)) =
          A.sq (runCircuit circuit (zeroState qubits) x)) ∧
        Dist.prob (runSteps Dist.flip A.sq A.load.enum qubits steps (List.replicate qubits.length 0)) (fun r => r.toOption = none) = 0 := by
  obtain ⟨steps, e, h⟩ := C39_expected A hE hsq circuit hg hfuel order ho
  refine ⟨steps, e, fun qubits hn hq => ⟨fun x hx => ?_, ?_⟩⟩
  · unfold Dist.prob
    rw [h qubits hn hq]
    simp only [Except.toOption, Option.some.injEq, List.map_inj_left, mul_ite, mul_one, mul_zero]
    rw [sumOver_pick hn _ _ x fun q _ => hx q]
    exact born_depends (fun g hm => (hg g hm).1.nodup) (fun q hm => (hq q).2 hm) fun q hm => over_mem hm
  · unfold Dist.prob
    rw [h qubits hn hq]
    simp only [Except.toOption, reduceCtorEq, if_false, mul_zero]
    exact sumOver_zero fun _ _ _ => rfl

/-- The expected value of a constant is that constant. -/
theorem expect_const (enum : Finset (Q × Stage) → List (Q × Stage)) (sq : K → R) (qubits : List Q) (ss : List (SampleStep Q K)) (c : R) :
    ∀ bits, Dist.expect (runSteps Dist.flip sq enum qubits ss bits) (fun _ => c) = c := by
  induction ss with
  | nil => intro bits; simp only [runSteps, expect_pure]
  | cons s ss ih =>
    intro bits
    cases s with
    | classical m qs =>
      simp only [runSteps]
      split
      · rw [expect_pure]
      · exact ih _
    | quantum arrs inds path outQ qs =>
      simp only [runSteps]
      split
      · rw [expect_pure]
      · split
        · rw [expect_pure]
        · rw [expect_bind, expect_flip, ih, ih]
          ring

/-- C39, normalisation: the probabilities of Born's rule add up to 1. -/
theorem C39_total (A : SampleArgs Q K R S σ W) (hE : SampleEnv A) (hsq : IsAbsSq A.sq) (circuit : List (Gate Q K)) (hg : ∀ g ∈ circuit, SampleGate g)
    (hfuel : 12 * (circuit.map fun g => g.2.length).sum < A.load.fuel) (qubits : List Q) (hn : qubits.Nodup)
    (hq : ∀ q, q ∈ qubits ↔ q ∈ circuit.flatMap Prod.snd) :
    sumOver (fun _ => 2) qubits (fun x => A.sq (runCircuit circuit (zeroState qubits) x)) (fun _ => 0) = 1 := by
  obtain ⟨steps, -, h⟩ := C39_expected A hE hsq circuit hg hfuel none (by simp)
  have := h qubits hn hq fun _ => 1
  rw [expect_const] at this
  simp only [mul_one] at this
  exact this.symm

/-- C39, every call: for every generator of numbers in `[0, 1)`, `sample` returns normally. The reported bitstrings are those that were drawn, with the number of
times, or the fraction of the times, that they were drawn, in descending order; all have a positive probability. The numbers add up to `n_samples`,
the fractions to 1. -/
theorem C39_sample (A : SampleArgs Q K R S σ W) (hE : SampleEnv A) (hsq : IsAbsSq A.sq) (circuit : List (Gate Q K)) (hg : ∀ g ∈ circuit, SampleGate g)
    (hfuel : 12 * (circuit.map fun g => g.2.length).sum < A.load.fuel) (order : Option (List Q))
    (ho : ∀ o, order = some o → o.Nodup ∧ ∀ q, q ∈ o ↔ q ∈ circuit.flatMap Prod.snd) {τ : Type} (random : τ → R × τ)
    (hr : ∀ s, 0 ≤ (random s).1 ∧ (random s).1 < 1) (s : τ) (enumQ : Finset Q → List Q) (heQ : EnumOk enumQ) (n : ℕ) (normalize : Bool) :
    ∃ steps r qubits, prepare A circuit order = some (.ok (steps, (circuit.flatMap Prod.snd).toFinset)) ∧
      sample A random s enumQ circuit order n normalize = some (.ok (r, qubits)) ∧ qubits.Nodup ∧
      (∀ q, q ∈ qubits ↔ q ∈ circuit.flatMap Prod.snd) ∧ (∀ o, order = some o → qubits = o) ∧ (r.map Prod.fst).Nodup ∧
      (∀ e ∈ r, ∃ x, BitVals x ∧ e.1 = qubits.map x ∧ A.sq (runCircuit circuit (zeroState qubits) x) ≠ 0) ∧ r.Pairwise (fun a b => b.2 ≤ a.2) ∧
      (∀ b v, (b, v) ∈ r ↔ 0 < countOf b (sampleSeq random A.sq A.load.enum qubits steps n s) ∧
        v = if normalize then (countOf b (sampleSeq random A.sq A.load.enum qubits steps n s) : R) / n
          else (countOf b (sampleSeq random A.sq A.load.enum qubits steps n s) : R)) ∧
      (normalize = false → (r.map Prod.snd).sum = n) ∧ (normalize = true → 0 < n → (r.map Prod.snd).sum = 1) := by
  obtain ⟨steps, e, h⟩ := prepare_ok hE hsq hg hfuel fun o h => (ho o h).2
  set qset := (circuit.flatMap Prod.snd).toFinset with hqset
  set qubits := order.getD (enumQ qset) with hqd
  have hqq : qubits.Nodup ∧ ∀ q, q ∈ qubits ↔ q ∈ circuit.flatMap Prod.snd := by
    cases order with
    | none =>
      refine ⟨(heQ _).1, fun q => ?_⟩
      rw [hqd, Option.getD_none, (heQ _).2, hqset, List.mem_toFinset]
    | some o => exact ho o rfl
  obtain ⟨hn, hq⟩ := hqq
  have hS := h qubits hn fun q h => (hq q).2 h
  have hrep : List.replicate qubits.length 0 = qubits.map fun _ : Q => 0 := by simp
  have hrun : ∀ s, ∃ b s', runSteps (rngFlip random) A.sq A.load.enum qubits steps (List.replicate qubits.length 0) s = (.ok b, s') ∧
      ∃ x, BitVals x ∧ b = qubits.map x ∧ born A.sq circuit qubits x ≠ 0 := by
    intro s
    rw [hrep]
    obtain ⟨y, s', h1, h2, h3⟩ := run_ok hr hsq hn circuit [] steps (by simpa using hg) (by simpa using fun q h => (hq q).2 h) hS (fun _ => 0)
      (fun _ => Nat.zero_lt_two) (by rw [born_nil hsq]; simp) s
    exact ⟨_, s', h1, y, h2, rfl, by simpa using h3⟩
  obtain ⟨d, s', a1, a2, a3, a4, a5⟩ := sampleLoop_ok (fun b => ∃ x, BitVals x ∧ b = qubits.map x ∧ born A.sq circuit qubits x ≠ 0) hrun n s [] (by simp) (by simp)
  set r0 := d.map fun e => (e.1, if normalize then (e.2 : R) / (n : R) else (e.2 : R)) with hr0
  set r := r0.insertionSort (fun a b => b.2 ≤ a.2) with hrd
  have hp : r.Perm r0 := List.perm_insertionSort _ _
  have hall : (order.all fun o => o.toFinset = qset) = true := by
    cases order with
    | none => rfl
    | some o =>
      simp only [Option.all_some, decide_eq_true_eq]
      ext q
      rw [List.mem_toFinset, hqset, List.mem_toFinset]
      exact (ho o rfl).2 q
  have hfst : r0.map Prod.fst = d.map Prod.fst := by rw [hr0, List.map_map]; rfl
  refine ⟨steps, r, qubits, e, ?_, hn, hq, fun o h => by rw [hqd, h]; rfl, ?_, ?_, ?_, ?_, ?_, ?_⟩
  · unfold sample
    rw [e]
    simp only [sampleFrom, hall, if_true]
    rw [← hqd, a1]
  · rw [(hp.map Prod.fst).nodup_iff, hfst]
    exact a2
  · intro e' he'
    obtain ⟨e0, h0, rfl⟩ := List.mem_map.1 (hp.mem_iff.1 he')
    exact a3 e0 h0
  · haveI : Std.Total (fun a b : List ℕ × R => b.2 ≤ a.2) := ⟨fun a b => le_total b.2 a.2⟩
    haveI : IsTrans (List ℕ × R) (fun a b => b.2 ≤ a.2) := ⟨fun a b c h1 h2 => le_trans h2 h1⟩
    exact List.pairwise_insertionSort _ r0
  · intro b v
    rw [hp.mem_iff, hr0, List.mem_map]
    have hb := a5 b
    rw [show dget ([] : List (List ℕ × ℕ)) b = none from rfl] at hb
    simp only [Option.getD_none, Nat.zero_add] at hb
    constructor
    · rintro ⟨⟨b', c⟩, hm, hbv⟩
      simp only [Prod.mk.injEq] at hbv
      obtain ⟨rfl, rfl⟩ := hbv
      rw [dget_of_mem a2 hm] at hb
      split at hb
      · simp at hb
      · rename_i h0
        rw [Option.some.injEq] at hb
        rw [hb]
        exact ⟨Nat.pos_of_ne_zero h0, rfl⟩
    · rintro ⟨h0, rfl⟩
      rw [if_neg (by omega)] at hb
      exact ⟨(b, _), dget_mem hb, rfl⟩
  · intro hf
    rw [(hp.map Prod.snd).sum_eq, hr0, List.map_map]
    subst hf
    have : ((d.map Prod.snd).sum : ℕ) = n := by simpa using a4
    have key : ∀ d : List (List ℕ × ℕ), (d.map (Prod.snd ∘ fun e => (e.1, if false = true then (e.2 : R) / (n : R) else (e.2 : R)))).sum =
        ((d.map Prod.snd).sum : ℕ) := by
      intro d
      induction d with
      | nil => simp
      | cons e d ih =>
        rw [List.map_cons, List.sum_cons, ih, List.map_cons, List.sum_cons]
        simp
    rw [key d, this]
  · intro hf hpos
    rw [(hp.map Prod.snd).sum_eq, hr0, List.map_map]
    subst hf
    have hsum : ((d.map Prod.snd).sum : ℕ) = n := by simpa using a4
    have hn0 : (n : R) ≠ 0 := by exact_mod_cast hpos.ne'
    have : ∀ d : List (List ℕ × ℕ), (d.map (Prod.snd ∘ fun e => (e.1, if true = true then (e.2 : R) / (n : R) else (e.2 : R)))).sum =
        ((d.map Prod.snd).sum : ℕ) / (n : R) := by
      intro d
      induction d with
      | nil => simp
      | cons e d ih =>
        rw [List.map_cons, List.sum_cons, ih, List.map_cons, List.sum_cons]
        simp only [Function.comp, if_true]
        push_cast
        ring
    rw [this d, hsum, div_self hn0]

/-- C39, errors: a gate on two or more qubits which is not a classical operation, or an order with other qubits, raises `ValueError`. -/
theorem C39_rejects (A : SampleArgs Q K R S σ W) (hsq : IsAbsSq A.sq) (circuit : List (Gate Q K)) (hi : ∀ g ∈ circuit, IsGate g) (order : Option (List Q))
    (h : (∃ g ∈ circuit, g.2.length ≠ 1 ∧ ¬ IsMonomial (2 ^ g.2.length) g.1) ∨ ∃ o, order = some o ∧ ∃ q, ¬ (q ∈ o ↔ q ∈ circuit.flatMap Prod.snd)) :
    prepare A circuit order = some (.error .valueError) := by
  have hal : ∀ l : List (Gate Q K), (∀ g ∈ l, IsGate g) → allowed A.sq l = .ok true ∨ allowed A.sq l = .ok false := by
    intro l hl
    induction l with
    | nil => exact Or.inl rfl
    | cons g l ih =>
      simp only [allowed]
      split
      · exact ih fun g hg => hl g (by simp [hg])
      · obtain ⟨b, hb⟩ := isClassical_total (sq := A.sq) (hl g (by simp)).shape
        rw [hb]
        cases b
        · exact Or.inr rfl
        · exact ih fun g hg => hl g (by simp [hg])
  unfold prepare
  rcases h with ⟨g, hg, h1, h2⟩ | ⟨o, rfl, q, hq⟩
  · have : allowed A.sq circuit = .ok false := by
      clear order
      induction circuit with
      | nil => simp at hg
      | cons g' l ih =>
        simp only [allowed]
        rcases List.mem_cons.1 hg with rfl | hg'
        · rw [if_neg h1]
          obtain ⟨b, hb⟩ := isClassical_total (sq := A.sq) (hi g (by simp)).shape
          rw [hb]
          cases b
          · rfl
          · exact absurd ((isClassical_square hsq (hi g (by simp)).shape).1 hb) h2
        · have := ih (fun g hg => hi g (by simp [hg])) hg'
          rw [this]
          split
          · rfl
          · obtain ⟨b, hb⟩ := isClassical_total (sq := A.sq) (hi g' (by simp)).shape
            rw [hb]
            cases b <;> rfl
    rw [this]
  · rcases hal circuit hi with h | h
    · rw [h]
      have : ((some o).all fun o => o.toFinset = (circuit.flatMap Prod.snd).toFinset) = false := by
        simp only [Option.all_some, decide_eq_false_iff_not]
        intro e
        apply hq
        rw [← List.mem_toFinset, e, List.mem_toFinset]
      simp [this]
    · rw [h]

end

/-- C40, square matrices: exactly those with one entry of modulus one in each row and column, and no others, are accepted. -/
theorem C40_square_partial {sq : K → R} (A : IsAbsSq sq) (m : NDArray K) (r : ℕ) (hs : m.shape = [r, r]) :
    isClassical sq m = .ok true ↔ IsMonomial r m := isClassical_square A hs

/-- C40, all matrices: what acceptance means. Missing from the property: the matrix may have more columns than rows (of zeros), and the number of rows of a
square matrix need not be a power of two. -/
theorem C40_shape_partial {sq : K → R} (A : IsAbsSq sq) (m : NDArray K) (h : isClassical sq m = .ok true) :
    ∃ r c, m.shape = [r, c] ∧ r ≤ c ∧ (r = c ∨ ∃ k, r = 2 ^ k) ∧ (∀ i < r, ∀ j < c, r ≤ j → m.get [i, j] = 0) ∧
      (∀ i < r, ∃! j, j < c ∧ m.get [i, j] ≠ 0) ∧ (∀ j < r, ∃! i, i < r ∧ m.get [i, j] ≠ 0) ∧
      ∀ i < r, ∀ j < c, m.get [i, j] ≠ 0 → star (m.get [i, j]) * m.get [i, j] = 1 := by
  unfold isClassical at h
  split at h
  · rename_i r c hs
    split at h
    · simp at h
    · split at h
      · simp at h
      · rename_i h1 h2
        simp only at h
        split at h
        · rename_i h3
          simp only [Except.ok.injEq] at h
          obtain ⟨b1, b2, b3, b4, b5⟩ := (accepted_iff (sq := sq)).1 ⟨h3.1, h3.2, h⟩
          refine ⟨r, c, hs, b3, ?_, b4, b1, fun j hj => b2 j (by omega) hj, fun i hi j hj hne => A.eq_one.1 (b5 i hi j hj hne)⟩
          by_cases e : r = c
          · exact Or.inl e
          · refine Or.inr ⟨Nat.log2 r, ?_⟩
            by_contra hne
            exact h2 ⟨e, fun e' => hne e'.symm⟩
        · simp at h
  · simp at h

/-- C40 fails: a permutation of three states and a matrix which is not square are accepted. -/
theorem C40_violated (sq : ℚ → ℚ) (h : sq = fun x => x * x) :
    isClassical sq (⟨[3, 3], fun k => if k % 4 = 0 then 1 else 0⟩ : NDArray ℚ) = .ok true ∧
    isClassical sq (⟨[2, 3], fun k => if k % 4 = 0 then 1 else 0⟩ : NDArray ℚ) = .ok true := by
  subst h
  constructor <;> decide +kernel

/-- For the examples: the optimizer which contracts the first two tensors, again and again. -/
def firstPairs {ι : Type} (inds : List (List ι)) : Except PyErr (List (ℕ × ℕ)) := .ok (List.replicate (inds.length - 1) (0, 1))

theorem replay_firstPairs (n : ℕ) : ∀ ts : List Term, ts.length = n + 1 → ∃ F, replay ts (List.replicate n (0, 1)) = some F := by
  induction n with
  | zero => exact fun ts _ => ⟨ts, rfl⟩
  | succ n ih =>
    intro ts h
    match ts, h with
    | a :: b :: ts, h =>
      obtain ⟨F, hF⟩ := ih (ts ++ [.pair a b]) (by simpa using h)
      refine ⟨F, ?_⟩
      simp only [List.replicate_succ, replay, zero_ne_one, if_false]
      simpa using hF

/-- For the examples: the options of `sample`. -/
def sampleArgs (K : Type) {R : Type} (sq : K → R) (r : K) (simplify decompose : Bool) (fuse : Option ℕ) (enum : Finset (ℕ × Stage) → List (ℕ × Stage))
    (fuel : ℕ) : SampleArgs ℕ K R Unit Unit ℕ :=
  ⟨plainArgs K r simplify decompose fuse enum fuel, fun _ => (), sq, enum, fun _ inds => some (firstPairs inds)⟩

/-- A repeated qubit in `qubit_order` is not rejected: the bitstrings then have additional bits, which are always 0. Here the state of the only qubit
is 1. -/
theorem C39_repeated_order (enum : Finset (ℕ × Stage) → List (ℕ × Stage)) (enumQ : Finset ℕ → List ℕ) :
    sample (sampleArgs ℚ (fun x => x * x) 1 false false none enum 50) (fun s : Unit => ((0 : ℚ), s)) () enumQ
      [((⟨[2, 2], fun k => if k = 1 ∨ k = 2 then 1 else 0⟩ : NDArray ℚ), [0])] (some [0, 0]) 3 true = some (.ok ([([1, 0], 1)], [0, 0])) := by
  have hc : isClassical (fun x : ℚ => x * x) (⟨[2, 2], fun k => if k = 1 ∨ k = 2 then 1 else 0⟩ : NDArray ℚ) = .ok true := by decide +kernel
  have hp : prepare (sampleArgs ℚ (fun x => x * x) 1 false false none enum 50) [((⟨[2, 2], fun k => if k = 1 ∨ k = 2 then 1 else 0⟩ : NDArray ℚ), [0])]
      (some [0, 0]) = some (.ok ([.classical ⟨[2, 2], fun k => if (if k = 1 ∨ k = 2 then (1 : ℚ) else 0) ≠ 0 then 1 else 0⟩ [0]], {0})) := by
    simp [prepare, allowed, prepareLoop, prepareGate, sampleArgs, hc]
  have hs : stepClassical [0, 0] ⟨[2, 2], fun k => if (if k = 1 ∨ k = 2 then (1 : ℚ) else 0) ≠ 0 then 1 else 0⟩ [0] [0, 0] = .ok [1, 0] := by
    decide +kernel
  have hr : ∀ s : Unit, runSteps (rngFlip fun s : Unit => ((0 : ℚ), s)) (fun x : ℚ => x * x) enum [0, 0]
      [.classical ⟨[2, 2], fun k => if (if k = 1 ∨ k = 2 then (1 : ℚ) else 0) ≠ 0 then 1 else 0⟩ [0]] [0, 0] s = (.ok [1, 0], s) := by
    intro s
    simp only [runSteps, hs]
    rfl
  unfold sample
  rw [hp]
  simp only [sampleFrom, sampleArgs, plainArgs, Option.getD_some, List.length_cons, List.length_nil, List.replicate, sampleLoop]
  rw [hr]
  simp only [hr]
  norm_num [dset, dget]

/-- The Hadamard gate, for `h = 1/sqrt 2`. -/
def matH (h : ℂ) : NDArray ℂ := ⟨[2, 2], fun k => if k = 3 then -h else h⟩

open Classical in
/-- The hypotheses of C39 for a circuit which prepares a Bell state, with all options switched on. -/
example (enum : Finset (ℕ × Stage) → List (ℕ × Stage)) (he : EnumOk enum) : ∃ h : ℂ,
    let A := sampleArgs ℂ Complex.normSq h true true (some 3) enum 100
    let circuit : List (Gate ℕ ℂ) := [(matH h, [0]), (matCX, [0, 1])]
    SampleEnv A ∧ Nonempty (IsAbsSq A.sq) ∧ (∀ g ∈ circuit, SampleGate g) ∧ ¬ IsMonomial 2 (matH h) ∧
      12 * (circuit.map fun g => g.2.length).sum < A.load.fuel := by
  have hr : (Real.sqrt 2 / 2) * (Real.sqrt 2 / 2) + Real.sqrt 2 / 2 * (Real.sqrt 2 / 2) = 1 := by
    have := Real.mul_self_sqrt (show (0 : ℝ) ≤ 2 by norm_num)
    linarith
  obtain ⟨h, hst, hrc⟩ : ∃ h : ℂ, star h = h ∧ h * h + h * h = 1 := ⟨((Real.sqrt 2 / 2 : ℝ) : ℂ), Complex.conj_ofReal _, by
    rw [← Complex.ofReal_mul, ← Complex.ofReal_add, hr, Complex.ofReal_one]⟩
  refine ⟨h, ?_⟩
  have hne : h ≠ 0 := by
    intro h0
    rw [h0] at hrc
    simp at hrc
  have hst' : (starRingEnd ℂ) h = h := hst
  refine ⟨⟨⟨fun n s h => h, fun n s h => ⟨by simp [sampleArgs, plainArgs]; omega, by simp [sampleArgs, plainArgs]; omega, by simp [sampleArgs, plainArgs]⟩⟩,
    fun s => ⟨Finset.sort_nodup _ _, fun x => Finset.mem_sort _⟩, he, he, ?_, fun _ inds hi _ => ?_⟩,
    ⟨⟨Complex.ofRealHom, fun a => ?_, Complex.normSq_nonneg⟩⟩, fun g hg => ?_, ?_, ?_⟩
  · simp only [sampleArgs, plainArgs, hst]
    exact hrc
  · have hl := List.length_pos_iff.2 hi
    refine ⟨_, rfl, replay_firstPairs _ _ (by simp; omega), by simp; omega⟩
  · rw [Complex.star_def, mul_comm, Complex.mul_conj]
    rfl
  · simp only [List.mem_cons, List.not_mem_nil, or_false] at hg
    rcases hg with rfl | rfl
    · refine ⟨⟨by simp, by simp, rfl⟩, Or.inr ⟨rfl, fun r hr c hc => ?_⟩⟩
      simp only [List.length_cons, List.length_nil] at hr hc ⊢
      norm_num at hr hc
      interval_cases r <;> interval_cases c <;>
        simp [Finset.sum_range_succ, matH, NDArray.get, ravel, hst'] <;> simpa using hrc
    · refine ⟨⟨by simp, by simp, rfl⟩, Or.inl ?_⟩
      change IsMonomial 4 matCX
      refine ⟨⟨Equiv.swap 2 3, fun i j => ?_⟩, fun i j hij => ?_⟩
      · fin_cases i <;> fin_cases j <;> simp [matCX, NDArray.get, ravel] <;> decide
      · have : ∀ k, matCX.data k ≠ 0 → star (matCX.data k) * matCX.data k = 1 := by
          intro k hk
          simp only [matCX] at hk ⊢
          split at hk
          · rename_i h; simp [h]
          · simp at hk
        exact this _ hij
  · rintro ⟨⟨σ, hσ⟩, -⟩
    have h0 := (hσ 0 0).1 (by simpa [matH, NDArray.get, ravel] using hne)
    have h1 := (hσ 1 0).1 (by simpa [matH, NDArray.get, ravel] using hne)
    exact absurd (h0.trans h1.symm) (by decide)
  · simp [sampleArgs, plainArgs]

end TNCO
