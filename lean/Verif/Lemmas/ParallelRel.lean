import Verif.Lemmas.ParallelMap

/-! `Parallel` with two cores whose states and results are related. -/

namespace TNCO
variable {A V σ σ' ρ ρ' ε : Type}

/-- Both steps do the same, with related states and results. -/
def StepRel (R : σ → σ' → Prop) (Q : ρ → ρ' → Prop) : CoreStep σ ρ ε V → CoreStep σ' ρ' ε V → Prop
  | .next s m, .next s' m' => R s s' ∧ m = m'
  | .ret r m, .ret r' m' => Q r r' ∧ m = m'
  | .raise e m, .raise e' m' => e = e' ∧ m = m'
  | _, _ => False

/-- The two cores go together. -/
structure Core.Rel (R : σ → σ' → Prop) (Q : ρ → ρ' → Prop) (c : Core A V σ ρ ε) (c' : Core A V σ' ρ' ε) : Prop where
  start : ∀ xs d i, R (c.start xs d i) (c'.start xs d i)
  step : ∀ i s s' m, R s s' → StepRel R Q (c.step i s m) (c'.step i s' m)

variable {R : σ → σ' → Prop} {Q : ρ → ρ' → Prop} {c : Core A V σ ρ ε} {c' : Core A V σ' ρ' ε}

/-- The two steps as one. -/
def CoreStep.both : (x : CoreStep σ ρ ε V) → (y : CoreStep σ' ρ' ε V) → StepRel R Q x y →
    CoreStep {p : σ × σ' // R p.1 p.2} {p : ρ × ρ' // Q p.1 p.2} ε V
  | .next s m, .next s' _, h => .next ⟨(s, s'), h.1⟩ m
  | .ret r m, .ret r' _, h => .ret ⟨(r, r'), h.1⟩ m
  | .raise e m, .raise _ _, _ => .raise e m
  | .next .., .ret .., h => h.elim
  | .next .., .raise .., h => h.elim
  | .ret .., .next .., h => h.elim
  | .ret .., .raise .., h => h.elim
  | .raise .., .next .., h => h.elim
  | .raise .., .ret .., h => h.elim

/-- The two cores as one. -/
def Core.both (h : Core.Rel R Q c c') : Core A V {p : σ × σ' // R p.1 p.2} {p : ρ × ρ' // Q p.1 p.2} ε where
  start xs d i := ⟨(c.start xs d i, c'.start xs d i), h.start xs d i⟩
  step i s m := CoreStep.both _ _ (h.step i s.1.1 s.1.2 m s.2)

theorem Core.both_left (h : Core.Rel R Q c c') : Core.Sim (fun p => p.1.1) (fun p => p.1.1) (Core.both h) c where
  start _ _ _ := rfl
  step i s m := by
    change c.step i s.1.1 m = (CoreStep.both _ _ (h.step i s.1.1 s.1.2 m s.2)).map _ _
    generalize h.step i s.1.1 s.1.2 m s.2 = hh
    revert hh
    generalize c.step i s.1.1 m = x
    generalize c'.step i s.1.2 m = y
    intro hh
    cases x <;> cases y <;> first | rfl | exact hh.elim

theorem Core.both_right (h : Core.Rel R Q c c') : Core.Sim (fun p => p.1.2) (fun p => p.1.2) (Core.both h) c' where
  start _ _ _ := rfl
  step i s m := by
    change c'.step i s.1.2 m = (CoreStep.both _ _ (h.step i s.1.1 s.1.2 m s.2)).map _ _
    generalize h.step i s.1.1 s.1.2 m s.2 = hh
    revert hh
    generalize c.step i s.1.1 m = x
    generalize c'.step i s.1.2 m = y
    intro hh
    cases x <;> cases y <;> first | exact hh.elim | skip
    · obtain ⟨h1, rfl⟩ := hh; rfl
    · obtain ⟨h1, rfl⟩ := hh; rfl
    · obtain ⟨rfl, rfl⟩ := hh; rfl

/-- Both calls do not return, raise the same or return lists of related results. -/
def OutRel {ε' α β : Type} (Q : α → β → Prop) : Option (Except ε' α) → Option (Except ε' β) → Prop
  | none, none => True
  | some (.error e), some (.error e') => e = e'
  | some (.ok a), some (.ok b) => Q a b
  | _, _ => False

theorem parallel_rel (h : Core.Rel R Q c c') (cd : Codec V) (alloc : ℕ → ℕ) (zero : V) (joblib : Bool) (nJobs : ℤ) (args : List (List A))
    (kwargs : List (String × List A)) (bufs : List (String × List Char)) (sched : List Event) (sys : Sys) :
    (parallel c cd alloc zero joblib nJobs args kwargs bufs sched sys).1 = (parallel c' cd alloc zero joblib nJobs args kwargs bufs sched sys).1 ∧
    OutRel (List.Forall₂ Q) (parallel c cd alloc zero joblib nJobs args kwargs bufs sched sys).2
      (parallel c' cd alloc zero joblib nJobs args kwargs bufs sched sys).2 := by
  rw [parallel_map (Core.both_left h), parallel_map (Core.both_right h)]
  refine ⟨rfl, ?_⟩
  unfold mapOutcome
  dsimp only
  rcases (parallel (Core.both h) cd alloc zero joblib nJobs args kwargs bufs sched sys).2 with _ | e | rs
  · trivial
  · rfl
  · simp only [Option.map_some, Except.map, OutRel]
    induction rs with
    | nil => exact .nil
    | cons r rs ih => exact .cons r.2 ih

/-! The runs of two annealing apps. -/

variable {κ κ' : Type}

/-- The two runs are at the same point. -/
def AStateRel (good : List (ℕ × ℕ) → Prop) (R : σ → σ' → Prop) (K : κ → κ' → Prop) : AState σ κ → AState σ' κ' → Prop
  | .start seed, .start seed' => seed = seed'
  | .comps seed todo done, .comps seed' todo' done' => seed = seed' ∧ todo = todo' ∧ (∀ p ∈ todo, good p) ∧ List.Forall₂ K done done'
  | .loop seed todo done n betas o, .loop seed' todo' done' n' betas' o' =>
    seed = seed' ∧ todo = todo' ∧ (∀ p ∈ todo, good p) ∧ List.Forall₂ K done done' ∧ n = n' ∧ betas = betas' ∧ R o o'
  | _, _ => False

/-- The two apps do the same, with related optimizers and results. -/
structure Anneal.Rel (good : List (ℕ × ℕ) → Prop) (R : σ → σ' → Prop) (K : κ → κ' → Prop) (Q : ρ → ρ' → Prop) (B : Anneal σ κ ρ V) (B' : Anneal σ' κ' ρ' V) :
    Prop where
  paths : ∀ seed, B'.paths seed = B.paths seed
  goods : ∀ seed ps, B.paths seed = some (.ok ps) → ∀ p ∈ ps, good p
  make : ∀ seed p, p ≠ [] → good p → OutRel R (B.make seed p) (B'.make seed p)
  update : ∀ n b o o', R o o' → OutRel R (B.update n b o) (B'.update n b o')
  log2 : ∀ o o', R o o' → B'.log2 o' = B.log2 o
  finish : ∀ o o', R o o' → OutRel K (B.finish o) (B'.finish o')
  trivial : K B.trivial B'.trivial
  total : ∀ l l', List.Forall₂ K l l' → OutRel Q (some (B.total l)) (some (B'.total l'))

variable {good : List (ℕ × ℕ) → Prop} {K : κ → κ' → Prop} {B : Anneal σ κ ρ V} {B' : Anneal σ' κ' ρ' V}

theorem annealFinish_rel (hs : Anneal.Rel good R K Q B B') {seed : ℕ} {todo : List (List (ℕ × ℕ))} (ht : ∀ p ∈ todo, good p) {done : List κ} {done' : List κ'}
    (hd : List.Forall₂ K done done') (n : ℕ) (betas : List ℚ) {o : σ} {o' : σ'} (ho : R o o') (m : Mem V) :
    StepRel (AStateRel good R K) Q (annealFinish B seed todo done n betas o m) (annealFinish B' seed todo done' n betas o' m) := by
  unfold annealFinish
  have := hs.finish o o' ho
  revert this
  rcases B.finish o with _ | e | k <;> rcases B'.finish o' with _ | e' | k'
  all_goals intro this
  all_goals first | exact this.elim | skip
  · exact ⟨⟨rfl, rfl, ht, hd, rfl, rfl, ho⟩, rfl⟩
  · exact ⟨this, rfl⟩
  · exact ⟨⟨rfl, rfl, ht, List.rel_append hd (.cons this .nil)⟩, rfl⟩

theorem annealCore_rel (hs : Anneal.Rel good R K Q B B') (betas : List ℚ) (sized : Bool) (nSteps : Option ℕ) (ratio : ℕ → ℕ → V) :
    Core.Rel (AStateRel good R K) Q (annealCore B betas sized nSteps ratio) (annealCore B' betas sized nSteps ratio) where
  start _ _ _ := rfl
  step i s s' m h := by
    change StepRel _ _ (annealStep B betas sized nSteps ratio i s m) (annealStep B' betas sized nSteps ratio i s' m)
    match s, s', h with
    | .start seed, .start _, rfl =>
      simp only [annealStep, hs.paths]
      have hg := hs.goods seed
      revert hg
      rcases B.paths seed with _ | e | ps
      all_goals intro hg
      · exact ⟨rfl, rfl⟩
      · exact ⟨rfl, rfl⟩
      · exact ⟨⟨rfl, rfl, hg ps rfl, .nil⟩, rfl⟩
    | .comps seed [] done, .comps _ _ done', ⟨rfl, rfl, ht, hd⟩ =>
      simp only [annealStep]
      have := hs.total _ _ hd
      revert this
      rcases B.total done with e | r <;> rcases B'.total done' with e' | r'
      all_goals intro this
      all_goals first | exact this.elim | exact ⟨this, rfl⟩
    | .comps seed ([] :: todo) done, .comps _ _ done', ⟨rfl, rfl, ht, hd⟩ =>
      simp only [annealStep]
      exact ⟨⟨rfl, rfl, fun p hp => ht p (by simp [hp]), List.rel_append hd (.cons hs.trivial .nil)⟩, rfl⟩
    | .comps seed ((a :: p) :: todo) done, .comps _ _ done', ⟨rfl, rfl, ht, hd⟩ =>
      simp only [annealStep]
      have := hs.make seed (a :: p) (by simp) (ht _ (by simp))
      revert this
      rcases B.make seed (a :: p) with _ | e | o <;> rcases B'.make seed (a :: p) with _ | e' | o'
      all_goals intro this
      all_goals first | exact this.elim | skip
      · exact ⟨⟨rfl, rfl, ht, hd⟩, rfl⟩
      · exact ⟨this, rfl⟩
      · exact ⟨⟨rfl, rfl, fun p hp => ht p (by simp [hp]), hd, rfl, rfl, this⟩, rfl⟩
    | .loop seed todo done n [] o, .loop _ _ done' _ _ o', ⟨rfl, rfl, ht, hd, rfl, rfl, ho⟩ =>
      simp only [annealStep]
      exact annealFinish_rel hs ht hd _ _ ho _
    | .loop seed todo done n (b :: bs) o, .loop _ _ done' _ _ o', ⟨rfl, rfl, ht, hd, rfl, rfl, ho⟩ =>
      simp only [annealStep]
      split
      · exact annealFinish_rel hs ht hd _ _ ho _
      · have := hs.update n b o o' ho
        revert this
        rcases B.update n b o with _ | e | o1 <;> rcases B'.update n b o' with _ | e' | o1'
        all_goals intro this
        all_goals first | exact this.elim | skip
        · exact ⟨⟨rfl, rfl, ht, hd, rfl, rfl, ho⟩, rfl⟩
        · exact ⟨this, rfl⟩
        · simp only
          rw [hs.log2 _ _ this]
          split
          · exact ⟨⟨rfl, rfl, ht, hd, rfl, rfl, this⟩, rfl⟩
          · exact ⟨rfl, rfl⟩

/-- Sorting related results by the same costs. -/
theorem sortResults_rel {C : Type} [LinearOrder C] {cost : ρ → C} {cost' : ρ' → C} (hc : ∀ r r', Q r r' → cost' r' = cost r) {l : List ρ} {l' : List ρ'}
    (h : List.Forall₂ Q l l') : List.Forall₂ Q (sortResults cost l) (sortResults cost' l') := by
  unfold sortResults
  induction h with
  | nil => exact .nil
  | @cons r r' l l' h1 _ ih =>
    simp only [List.insertionSort_cons]
    generalize List.insertionSort (fun a b => cost a ≤ cost b) l = k at ih
    generalize List.insertionSort (fun a b => cost' a ≤ cost' b) l' = k' at ih
    clear * - ih h1 hc
    induction ih with
    | nil => exact .cons h1 .nil
    | @cons a a' k k' h2 h3 ih =>
      simp only [List.orderedInsert_cons]
      rw [hc _ _ h1, hc _ _ h2]
      split
      · exact .cons h1 (.cons h2 h3)
      · exact .cons h2 ih

theorem runAnneal_rel {C : Type} [LinearOrder C] (hs : Anneal.Rel good R K Q B B') {cost : ρ → C} {cost' : ρ' → C} (hc : ∀ r r', Q r r' → cost' r' = cost r)
    (betas : List ℚ) (sized : Bool) (nSteps : Option ℕ) (ratio : ℕ → ℕ → V) (W : ParEnv V) (nJobs : ℤ) (seeds : List ℕ) (sched : List Event) (sys : Sys) :
    (runAnneal B cost betas sized nSteps ratio W nJobs seeds sched sys).1 = (runAnneal B' cost' betas sized nSteps ratio W nJobs seeds sched sys).1 ∧
    OutRel (List.Forall₂ Q) (runAnneal B cost betas sized nSteps ratio W nJobs seeds sched sys).2
      (runAnneal B' cost' betas sized nSteps ratio W nJobs seeds sched sys).2 := by
  rw [runAnneal_raw, runAnneal_raw]
  obtain ⟨h1, h2⟩ := parallel_rel (annealCore_rel hs betas sized nSteps ratio) W.cd W.alloc W.zero W.joblib nJobs [] [("seed", seeds)]
    [("log2_total_cost", ['f'])] sched sys
  refine ⟨h1, ?_⟩
  unfold sortOutcome rawAnneal
  dsimp only
  generalize (parallel (annealCore B betas sized nSteps ratio) W.cd W.alloc W.zero W.joblib nJobs [] [("seed", seeds)]
    [("log2_total_cost", ['f'])] sched sys).2 = x at h2
  generalize (parallel (annealCore B' betas sized nSteps ratio) W.cd W.alloc W.zero W.joblib nJobs [] [("seed", seeds)]
    [("log2_total_cost", ['f'])] sched sys).2 = y at h2
  rcases x with _ | e | rs <;> rcases y with _ | e' | rs'
  all_goals first | exact h2.elim | exact h2 | skip
  exact sortResults_rel hc h2

end TNCO
