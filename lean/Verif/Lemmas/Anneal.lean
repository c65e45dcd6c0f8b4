import Verif.Spec.Anneal
import Verif.Lemmas.ParallelProgress

/-! Runs of simulated annealing, whatever the optimizer. -/

namespace TNCO
variable {σ κ ρ V : Type}

theorem own_writeStatus (i : ℕ) (a b : V) (m : Mem V) :
    own i (writeStatus i a b m) = ((own i m).1.map fun _ => a,
      (own i m).2.map fun c => if c.1 = "log2_total_cost" then (c.1, c.2.map fun _ => b) else c) := by
  unfold own writeStatus
  simp only [Prod.mk.injEq, List.map_map]
  refine ⟨?_, List.map_congr_left fun c _ => ?_⟩
  · rw [List.getElem?_set]
    split
    · split <;> simp_all
    · simp_all
  · simp only [Function.comp]
    split
    · simp only [List.getElem?_set]
      split
      · split <;> simp_all
      · simp_all
    · rfl

theorem own_writeStatus_ne {i j : ℕ} (h : j ≠ i) (a b : V) (m : Mem V) : own j (writeStatus i a b m) = own j m := by
  unfold own writeStatus
  simp only [Prod.mk.injEq, List.map_map]
  refine ⟨by rw [List.getElem?_set_ne (Ne.symm h)], List.map_congr_left fun c _ => ?_⟩
  simp only [Function.comp]
  split
  · simp only [List.getElem?_set_ne (Ne.symm h)]
  · rfl

variable (A : Anneal σ κ ρ V) (betas : List ℚ) (sized : Bool) (nSteps : Option ℕ) (ratio : ℕ → ℕ → V)

theorem annealCore_local : (annealCore A betas sized nSteps ratio).Local := by
  constructor
  · intro i s m m' ho hs
    show (annealStep A betas sized nSteps ratio i s m).out = (annealStep A betas sized nSteps ratio i s m').out ∧
      own i (annealStep A betas sized nSteps ratio i s m).mem = own i (annealStep A betas sized nSteps ratio i s m').mem
    have hfin : ∀ seed todo done n bs o, (annealFinish A seed todo done n bs o m).out = (annealFinish A seed todo done n bs o m').out ∧
        own i (annealFinish A seed todo done n bs o m).mem = own i (annealFinish A seed todo done n bs o m').mem := by
      intro seed todo done n bs o
      unfold annealFinish
      split <;> exact ⟨rfl, ho⟩
    match s with
    | .start seed => simp only [annealStep]; split <;> exact ⟨rfl, ho⟩
    | .comps seed [] done => simp only [annealStep]; split <;> exact ⟨rfl, ho⟩
    | .comps seed ([] :: todo) done => exact ⟨rfl, ho⟩
    | .comps seed ((s :: p) :: todo) done => simp only [annealStep]; split <;> exact ⟨rfl, ho⟩
    | .loop seed todo done n [] o => exact hfin ..
    | .loop seed todo done n (b :: bs) o =>
      have e : m.stop.getD i false = m'.stop.getD i false := by simp only [List.getD, hs]
      simp only [annealStep]
      rw [e]
      split
      · exact hfin ..
      · split
        · exact ⟨rfl, ho⟩
        · exact ⟨rfl, ho⟩
        · split
          · refine ⟨rfl, ?_⟩
            simp only [CoreStep.mem, own_writeStatus, ho]
          · exact ⟨rfl, ho⟩
  · intro i j s m hj
    show own j (annealStep A betas sized nSteps ratio i s m).mem = own j m
    have hfin : ∀ seed todo done n bs o, own j (annealFinish A seed todo done n bs o m).mem = own j m := by
      intro seed todo done n bs o
      unfold annealFinish
      split <;> rfl
    match s with
    | .start seed => simp only [annealStep]; split <;> rfl
    | .comps seed [] done => simp only [annealStep]; split <;> rfl
    | .comps seed ([] :: todo) done => rfl
    | .comps seed ((s :: p) :: todo) done => simp only [annealStep]; split <;> rfl
    | .loop seed todo done n [] o => exact hfin ..
    | .loop seed todo done n (b :: bs) o =>
      simp only [annealStep]
      split
      · exact hfin ..
      · split
        · rfl
        · rfl
        · split
          · exact own_writeStatus_ne hj ..
          · rfl
  · intro i s m
    show (annealStep A betas sized nSteps ratio i s m).mem.stop = m.stop
    have hfin : ∀ seed todo done n bs o, (annealFinish A seed todo done n bs o m).mem.stop = m.stop := by
      intro seed todo done n bs o
      unfold annealFinish
      split <;> rfl
    match s with
    | .start seed => simp only [annealStep]; split <;> rfl
    | .comps seed [] done => simp only [annealStep]; split <;> rfl
    | .comps seed ([] :: todo) done => rfl
    | .comps seed ((s :: p) :: todo) done => simp only [annealStep]; split <;> rfl
    | .loop seed todo done n [] o => exact hfin ..
    | .loop seed todo done n (b :: bs) o =>
      simp only [annealStep]
      split
      · exact hfin ..
      · split
        · rfl
        · rfl
        · split <;> rfl

theorem StaysSet.shift {sig : ℕ → Bool} (h : StaysSet sig) : StaysSet fun k => sig (k + 1) := fun k => h (k + 1)

/-- What follows a step. -/
def resume (C : Core ℕ V (AState σ κ) ρ PyErr) (i : ℕ) (sig : ℕ → Bool) (fuel : ℕ) : CoreStep (AState σ κ) ρ PyErr V → Option (Except PyErr ρ)
  | .next s m => alone C i sig fuel s m
  | .ret r _ => some (.ok r)
  | .raise e _ => some (.error e)

theorem alone_resume (i : ℕ) (sig : ℕ → Bool) (fuel : ℕ) (s : AState σ κ) (m : Mem V) :
    alone (annealCore A betas sized nSteps ratio) i sig (fuel + 1) s m =
      resume (annealCore A betas sized nSteps ratio) i (fun k => sig (k + 1)) fuel
        (annealStep A betas sized nSteps ratio i s { m with stop := m.stop.set i (sig 0) }) := by
  rw [alone]
  have e : (annealCore A betas sized nSteps ratio).step i s { m with stop := m.stop.set i (sig 0) } =
    annealStep A betas sized nSteps ratio i s { m with stop := m.stop.set i (sig 0) } := rfl
  rw [e]
  cases annealStep A betas sized nSteps ratio i s { m with stop := m.stop.set i (sig 0) } <;> rfl

/-- What remains to be shown about a state. -/
def AStateOk (r : ρ) (B : Option ℕ) : AState σ κ → Prop
  | .start seed => ∃ ps ks, A.paths seed = some (.ok ps) ∧ Parts A betas (stepsOf nSteps betas) seed B ps ks ∧ A.total ks = .ok r
  | .comps seed todo done => ∃ ks, Parts A betas (stepsOf nSteps betas) seed B todo ks ∧ A.total (done ++ ks) = .ok r
  | .loop seed todo done n bs o => ∃ o' k ks, A.runN n (bs.take (spend B (stepsOf nSteps betas - n))) o = some (.ok o') ∧
      A.finish o' = some (.ok k) ∧ Parts A betas (stepsOf nSteps betas) seed (B.map (· - (stepsOf nSteps betas - n))) todo ks ∧
      A.total (done ++ k :: ks) = .ok r

/-- The loop variables of a state are consistent. -/
def StateInv : AState σ κ → Prop
  | .loop _ _ _ n bs _ => bs = betas.drop n ∧ n ≤ stepsOf nSteps betas
  | _ => True

theorem stepsOf_le (nSteps : Option ℕ) (betas : List ℚ) : stepsOf nSteps betas ≤ betas.length := by
  unfold stepsOf; split <;> omega

variable {A betas sized nSteps ratio}

theorem stepsOf_lt {seed todo done n b bs} {o : σ} (hinv : StateInv betas nSteps (.loop seed todo done n (b :: bs) o : AState σ κ))
    (h2 : nSteps ≠ some n) (o1 : σ := o) : StateInv betas nSteps (.loop seed todo done (n + 1) bs o1 : AState σ κ) := by
  have hlen : n < betas.length := by
    have e := hinv.1
    by_contra hcon
    rw [List.drop_eq_nil_of_le (by omega)] at e
    cases e
  refine ⟨by simpa using congrArg List.tail hinv.1, ?_⟩
  have h1 := hinv.2
  cases nSteps with
  | none => exact hlen
  | some k =>
    have : k ≠ n := fun e => h2 (by rw [e])
    simp only [stepsOf] at h1 ⊢
    omega

theorem spend_succ {B : Option ℕ} {L n : ℕ} (h : n + 1 ≤ L) : spend (B.map (· + 1)) (L - n) = spend B (L - (n + 1)) + 1 := by
  cases B <;> simp only [spend, Option.map_none, Option.map_some] <;> omega

theorem left_succ {B : Option ℕ} {L n : ℕ} (h : n + 1 ≤ L) : (B.map (· + 1)).map (· - (L - n)) = B.map (· - (L - (n + 1))) := by
  cases B with
  | none => rfl
  | some b => simp only [Option.map_some, Option.some.injEq]; omega

theorem alone_ok {i : ℕ} (fuel : ℕ) : ∀ {sig : ℕ → Bool} {s : AState σ κ} {m : Mem V} {r : ρ}, StaysSet sig → i < m.stop.length →
    StateInv betas nSteps s → alone (annealCore A betas sized nSteps ratio) i sig fuel s m = some (.ok r) →
    ∃ B, (sig 0 = true → B = some 0) ∧ ((∀ k, sig k = false) → B = none) ∧ AStateOk A betas nSteps r B s := by
  induction fuel with
  | zero => intro sig s m r _ _ _ h; cases h
  | succ fuel ih =>
    intro sig s m r hsig hi hinv h
    rw [alone_resume] at h
    set m' : Mem V := { m with stop := m.stop.set i (sig 0) } with hm'
    have hi' : i < m'.stop.length := by simpa [hm'] using hi
    have hget : m'.stop.getD i false = sig 0 := by simp [hm', List.getD, hi]
    -- going on in another state with the same memory
    have go : ∀ {s' : AState σ κ} {m'' : Mem V}, i < m''.stop.length → StateInv betas nSteps s' →
        alone (annealCore A betas sized nSteps ratio) i (fun k => sig (k + 1)) fuel s' m'' = some (.ok r) →
        ∃ B, (sig 0 = true → B = some 0) ∧ ((∀ k, sig k = false) → B = none) ∧ AStateOk A betas nSteps r B s' := by
      intro s' m'' h1 h2 h3
      obtain ⟨B, b1, b2, b3⟩ := ih hsig.shift h1 h2 h3
      exact ⟨B, fun h => b1 (hsig 0 h), fun h => b2 fun k => h (k + 1), b3⟩
    -- the end of the loop
    have fin : ∀ {seed todo done n bs o}, StateInv betas nSteps (.loop seed todo done n bs o : AState σ κ) →
        (n = stepsOf nSteps betas ∨ sig 0 = true) →
        resume (annealCore A betas sized nSteps ratio) i (fun k => sig (k + 1)) fuel (annealFinish A seed todo done n bs o m') = some (.ok r) →
        ∃ B, (sig 0 = true → B = some 0) ∧ ((∀ k, sig k = false) → B = none) ∧
          AStateOk A betas nSteps r B (.loop seed todo done n bs o) := by
      intro seed todo done n bs o hinv hend h
      unfold annealFinish at h
      cases hf : A.finish o with
      | none => simp only [hf] at h; exact go hi' hinv h
      | some x =>
        cases x with
        | error e => simp only [hf] at h; cases h
        | ok k =>
          simp only [hf] at h
          obtain ⟨B, b1, b2, ks, b3, b4⟩ := go hi' (s' := .comps seed todo (done ++ [k])) (by trivial) h
          refine ⟨B, b1, b2, o, k, ks, ?_, hf, ?_, by simpa using b4⟩
          · have : spend B (stepsOf nSteps betas - n) = 0 := by
              rcases hend with rfl | hs
              · unfold spend; split <;> omega
              · rw [b1 hs]; simp [spend]
            rw [this, List.take_zero]; rfl
          · have : B.map (· - (stepsOf nSteps betas - n)) = B := by
              rcases hend with rfl | hs
              · cases B <;> simp
              · rw [b1 hs]; simp
            rw [this]; exact b3
    match s, hinv, h with
    | .start seed, hinv, h =>
      simp only [annealStep] at h
      cases hp : A.paths seed with
      | none => simp only [hp] at h; exact go hi' (by trivial) h
      | some x =>
        cases x with
        | error e => simp only [hp] at h; cases h
        | ok ps =>
          simp only [hp] at h
          obtain ⟨B, b1, b2, ks, b3, b4⟩ := go hi' (by trivial) h
          exact ⟨B, b1, b2, ps, ks, hp, b3, by simpa using b4⟩
    | .comps seed [] done, hinv, h =>
      simp only [annealStep] at h
      cases ht : A.total done with
      | error e => simp only [ht] at h; cases h
      | ok r' =>
        simp only [ht] at h
        cases h
        refine ⟨if sig 0 then some 0 else none, fun h => by simp [h], fun h => by simp [h 0], [], .nil _, by simpa using ht⟩
    | .comps seed ([] :: todo) done, hinv, h =>
      simp only [annealStep] at h
      obtain ⟨B, b1, b2, ks, b3, b4⟩ := go hi' (by trivial) h
      exact ⟨B, b1, b2, A.trivial :: ks, .empty b3, by simpa using b4⟩
    | .comps seed ((st :: p) :: todo) done, hinv, h =>
      simp only [annealStep] at h
      cases hk : A.make seed (st :: p) with
      | none => simp only [hk] at h; exact go hi' (by trivial) h
      | some x =>
        cases x with
        | error e => simp only [hk] at h; cases h
        | ok o =>
          simp only [hk] at h
          obtain ⟨B, b1, b2, o', k, ks, b3, b4, b5, b6⟩ := go hi' (s' := .loop seed todo done 0 betas o) ⟨by simp, Nat.zero_le _⟩ h
          exact ⟨B, b1, b2, k :: ks, .path (by simp) hk (by simpa using b3) b4 (by simpa using b5), by simpa using b6⟩
    | .loop seed todo done n [] o, hinv, h =>
      refine fin hinv (Or.inl ?_) h
      have := hinv.1
      have h1 := hinv.2
      have h2 := stepsOf_le nSteps betas
      have h3 := List.drop_eq_nil_iff.1 this.symm
      omega
    | .loop seed todo done n (b :: bs) o, hinv, h =>
      simp only [annealStep] at h
      rw [hget] at h
      by_cases hstop : nSteps = some n ∨ sig 0 = true
      · rw [if_pos hstop] at h
        refine fin hinv ?_ h
        rcases hstop with hn | hs
        · left
          have h1 := hinv.2
          subst hn
          simp only [stepsOf] at h1 ⊢
          omega
        · exact Or.inr hs
      · rw [if_neg hstop] at h
        push Not at hstop
        have hlt := stepsOf_lt hinv hstop.1
        cases hu : A.update n b o with
        | none => simp only [hu] at h; exact go hi' hinv h
        | some x =>
          cases x with
          | error e => simp only [hu] at h; cases h
          | ok o1 =>
            simp only [hu] at h
            cases hz : sized with
            | false => rw [hz] at h; cases h
            | true =>
              subst hz
              obtain ⟨B, b1, b2, o', k, ks, b3, b4, b5, b6⟩ := ih hsig.shift (s := .loop seed todo done (n + 1) bs o1)
                (m := writeStatus i (ratio n betas.length) (A.log2 o1) m')
                (by simpa [writeStatus] using hi') hlt h
              refine ⟨B.map (· + 1), fun h => absurd h hstop.2, fun h => by rw [b2 fun k => h (k + 1)]; rfl, o', k, ks, ?_, b4, ?_, b6⟩
              · rw [spend_succ hlt.2, List.take_succ_cons, Anneal.runN, hu]
                exact b3
              · rw [left_succ hlt.2]; exact b5

theorem runN_snoc (A : Anneal σ κ ρ V) : ∀ (l : List ℚ) (n : ℕ) (b : ℚ) (o o' : σ), A.runN n l o = some (.ok o') →
    A.runN n (l ++ [b]) o = A.update (n + l.length) b o'
  | [], n, b, o, o', h => by
    simp only [Anneal.runN, Option.some.injEq, Except.ok.injEq] at h
    subst h
    simp only [List.nil_append, Anneal.runN, List.length_nil, Nat.add_zero]
    split <;> simp_all
  | c :: l, n, b, o, o', h => by
    simp only [Anneal.runN, List.cons_append] at h ⊢
    cases hu : A.update n c o with
    | none => simp [hu] at h
    | some x =>
      cases x with
      | error e => simp [hu] at h
      | ok o1 =>
        simp only [hu] at h ⊢
        rw [runN_snoc A l (n + 1) b o1 o' h]
        congr 1
        simp only [List.length_cons]; omega

/-- The steps that a state needs at most. -/
def need (L : ℕ) : AState σ κ → ℕ
  | .start _ => 0
  | .comps _ todo _ => 1 + todo.length * (L + 2)
  | .loop _ todo _ n _ _ => L - n + 2 + todo.length * (L + 2)

/-- The path can be optimized for as long as allowed. -/
def MakeOk (A : Anneal σ κ ρ V) (betas : List ℚ) (L seed : ℕ) (p : List (ℕ × ℕ)) : Prop :=
  p ≠ [] → ∃ o, A.make seed p = some (.ok o) ∧
    ∀ k ≤ L, ∃ o' r, A.runN 0 (betas.take k) o = some (.ok o') ∧ A.finish o' = some (.ok r)

/-- Nothing goes wrong from a state on. -/
def StateSafe (A : Anneal σ κ ρ V) (betas : List ℚ) (L : ℕ) : AState σ κ → Prop
  | .start _ => False
  | .comps seed todo done => (∀ p ∈ todo, MakeOk A betas L seed p) ∧ ∀ ks, AnyParts A betas L seed todo ks → ∃ r, A.total (done ++ ks) = .ok r
  | .loop seed todo done n _ o => (∀ p ∈ todo, MakeOk A betas L seed p) ∧
      ∃ o₀, A.runN 0 (betas.take n) o₀ = some (.ok o) ∧
        (∀ k ≤ L, ∃ o' r, A.runN 0 (betas.take k) o₀ = some (.ok o') ∧ A.finish o' = some (.ok r)) ∧
        ∀ j o' k ks, j ≤ L → A.runN 0 (betas.take j) o₀ = some (.ok o') → A.finish o' = some (.ok k) → AnyParts A betas L seed todo ks →
          ∃ r, A.total (done ++ k :: ks) = .ok r

theorem Parts.any {B : Option ℕ} {L seed : ℕ} {ps : List (List (ℕ × ℕ))} {ks : List κ} (h : Parts A betas L seed B ps ks) :
    AnyParts A betas L seed ps ks := by
  induction h with
  | nil => exact .nil
  | empty _ ih => exact .empty ih
  | @path B p ps k ks o o' h1 h2 h3 h4 _ ih => exact .path h1 h2 (by unfold spend; split <;> omega) h3 h4 ih

theorem alone_state {i : ℕ} (fuel : ℕ) : ∀ {sig : ℕ → Bool} {s : AState σ κ} {m : Mem V}, i < m.stop.length →
    StateInv betas nSteps s → StateSafe A betas (stepsOf nSteps betas) s → need (stepsOf nSteps betas) s ≤ fuel →
    ∃ r, alone (annealCore A betas true nSteps ratio) i sig fuel s m = some (.ok r) := by
  induction fuel with
  | zero =>
    intro sig s m _ _ hs hn
    match s, hs, hn with
    | .comps _ _ _, _, hn => simp only [need] at hn; omega
    | .loop .., _, hn => simp only [need] at hn; omega
  | succ fuel ih =>
    intro sig s m hi hinv hs hn
    rw [alone_resume]
    set m' : Mem V := { m with stop := m.stop.set i (sig 0) } with hm'
    have hi' : i < m'.stop.length := by simpa [hm'] using hi
    have hget : m'.stop.getD i false = sig 0 := by simp [hm', List.getD, hi]
    have fin : ∀ {seed todo done n bs o}, StateInv betas nSteps (.loop seed todo done n bs o : AState σ κ) →
        StateSafe A betas (stepsOf nSteps betas) (.loop seed todo done n bs o) →
        need (stepsOf nSteps betas) (.loop seed todo done n bs o : AState σ κ) ≤ fuel + 1 →
        ∃ r, resume (annealCore A betas true nSteps ratio) i (fun k => sig (k + 1)) fuel (annealFinish A seed todo done n bs o m') =
          some (.ok r) := by
      intro seed todo done n bs o hinv hs hn
      obtain ⟨h1, o₀, h2, h3, h4⟩ := hs
      obtain ⟨o', r, h5, h6⟩ := h3 n hinv.2
      have h5' := h5
      rw [h2] at h5
      cases h5
      unfold annealFinish
      simp only [h6]
      refine ih hi' (s := .comps seed todo (done ++ [r])) (by trivial) ⟨h1, ?_⟩ ?_
      · intro ks hP
        obtain ⟨x, hx⟩ := h4 n o r ks hinv.2 h5' h6 hP
        exact ⟨x, by simpa using hx⟩
      · simp only [need] at hn ⊢; omega
    match s, hinv, hs, hn with
    | .comps seed [] done, hinv, hs, hn =>
      obtain ⟨r, hr⟩ := hs.2 [] .nil
      rw [List.append_nil] at hr
      simp only [annealStep, hr]
      exact ⟨r, rfl⟩
    | .comps seed ([] :: todo) done, hinv, hs, hn =>
      simp only [annealStep]
      refine ih hi' (s := .comps seed todo (done ++ [A.trivial])) (by trivial)
        ⟨fun p hp => hs.1 p (List.mem_cons_of_mem _ hp), fun ks hP => ?_⟩ ?_
      · obtain ⟨r, hr⟩ := hs.2 _ (.empty hP)
        exact ⟨r, by simpa using hr⟩
      · simp only [need, List.length_cons, Nat.add_mul] at hn ⊢; omega
    | .comps seed ((st :: p) :: todo) done, hinv, hs, hn =>
      obtain ⟨o, ho, hk⟩ := hs.1 _ List.mem_cons_self (by simp)
      simp only [annealStep, ho]
      refine ih hi' (s := .loop seed todo done 0 betas o) ⟨by simp, Nat.zero_le _⟩
        ⟨fun p hp => hs.1 p (List.mem_cons_of_mem _ hp), o, rfl, hk, fun j o' k ks hj hr hf hP => ?_⟩ ?_
      · exact hs.2 _ (.path (by simp) ho hj hr hf hP)
      · simp only [need, List.length_cons, Nat.add_mul] at hn ⊢; omega
    | .loop seed todo done n [] o, hinv, hs, hn =>
      exact fin hinv hs hn
    | .loop seed todo done n (b :: bs) o, hinv, hs, hn =>
      simp only [annealStep]
      rw [hget]
      by_cases hstop : nSteps = some n ∨ sig 0 = true
      · rw [if_pos hstop]
        exact fin hinv hs hn
      · rw [if_neg hstop]
        push Not at hstop
        have hlt := stepsOf_lt hinv hstop.1
        obtain ⟨h1, o₀, h2, h3, h4⟩ := hs
        obtain ⟨o1, r, h5, h6⟩ := h3 (n + 1) hlt.2
        have hL := stepsOf_le nSteps betas
        have hb : betas.take (n + 1) = betas.take n ++ [b] := by
          have hn' : n < betas.length := by have := hlt.2; omega
          rw [List.take_succ_eq_append_getElem hn']
          have := List.drop_eq_getElem_cons hn'
          rw [← hinv.1] at this
          injection this with e _
          rw [e]
        have hu : A.update n b o = some (.ok o1) := by
          rw [hb, runN_snoc A _ _ _ _ _ h2] at h5
          have hl : (betas.take n).length = n := by rw [List.length_take]; have := hlt.2; omega
          rw [hl, Nat.zero_add] at h5
          exact h5
        simp only [hu, if_true]
        refine ih (s := .loop seed todo done (n + 1) bs o1) (by simpa [writeStatus] using hi') hlt
          ⟨h1, o₀, h5, h3, h4⟩ ?_
        have := hlt.2
        simp only [need] at hn ⊢; omega

/-- A safe run ends with a result, whatever the stop flag does. -/
theorem alone_safe {seed : ℕ} {ps : List (List (ℕ × ℕ))} (hs : A.Safe betas (stepsOf nSteps betas) seed ps) (i : ℕ) (m : Mem V)
    (hi : i < m.stop.length) (sig : ℕ → Bool) :
    ∃ r, alone (annealCore A betas true nSteps ratio) i sig (2 + ps.length * (stepsOf nSteps betas + 2)) (.start seed) m =
      some (.ok r) := by
  rw [show 2 + ps.length * (stepsOf nSteps betas + 2) = (1 + ps.length * (stepsOf nSteps betas + 2)) + 1 by omega, alone_resume]
  simp only [annealStep, hs.paths]
  refine alone_state _ (s := .comps seed ps []) (by simpa using hi) (by trivial) ⟨hs.make, fun ks hP => ?_⟩ (le_refl _)
  simpa using hs.total ks hP

end TNCO
