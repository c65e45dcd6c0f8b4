import Verif.Spec.Effort
import Verif.Lemmas.AnnealRun
import Verif.Lemmas.Report

/-! More temperatures or more seeds: helper lemmas. -/

namespace TNCO

/-! ## Sorted lists -/

theorem insert_dominated {ρ ρ' C : Type} [LinearOrder C] {cost : ρ → C} {cost' : ρ' → C} :
    ∀ {l : List ρ} {l' : List ρ'}, List.Forall₂ (fun r r' => cost' r' ≤ cost r) l l' →
      (l.Pairwise fun a b => cost a ≤ cost b) → (l'.Pairwise fun a b => cost' a ≤ cost' b) → ∀ {a : ρ} {a' : ρ'}, cost' a' ≤ cost a →
      List.Forall₂ (fun r r' => cost' r' ≤ cost r) (l.orderedInsert (fun a b => cost a ≤ cost b) a) (l'.orderedInsert (fun a b => cost' a ≤ cost' b) a') := by
  intro l l' h
  induction h with
  | nil => intro _ _ a a' ha; exact .cons ha .nil
  | @cons b b' l l' hb hl ih =>
    intro hs hs' a a' ha
    rw [List.pairwise_cons] at hs hs'
    simp only [List.orderedInsert]
    by_cases h1 : cost a ≤ cost b
    · rw [if_pos h1]
      by_cases h2 : cost' a' ≤ cost' b'
      · rw [if_pos h2]; exact .cons ha (.cons hb hl)
      · rw [if_neg h2]
        refine .cons ((le_of_not_ge h2).trans ha) ?_
        -- `a' :: …` inserted below, `b` above: `cost' a' ≤ cost a ≤ cost b`
        have := ih hs.2 hs'.2 (a := b) (a' := a') (ha.trans h1)
        have e : l.orderedInsert (fun a b => cost a ≤ cost b) b = b :: l := by
          cases l with
          | nil => rfl
          | cons c l => exact List.orderedInsert_cons_of_le _ l (hs.1 c List.mem_cons_self)
        rwa [e] at this
    · rw [if_neg h1]
      by_cases h2 : cost' a' ≤ cost' b'
      · rw [if_pos h2]
        refine .cons (h2.trans hb) ?_
        have := ih hs.2 hs'.2 (a := a) (a' := b') (hb.trans (le_of_not_ge h1))
        have e : l'.orderedInsert (fun a b => cost' a ≤ cost' b) b' = b' :: l' := by
          cases l' with
          | nil => rfl
          | cons c l' => exact List.orderedInsert_cons_of_le _ l' (hs'.1 c List.mem_cons_self)
        rwa [e] at this
      · rw [if_neg h2]
        exact .cons hb (ih hs.2 hs'.2 ha)

theorem sort_dominated {ρ ρ' C : Type} [LinearOrder C] {cost : ρ → C} {cost' : ρ' → C} {l : List ρ} {l' : List ρ'}
    (h : List.Forall₂ (fun r r' => cost' r' ≤ cost r) l l') :
    List.Forall₂ (fun r r' => cost' r' ≤ cost r) (sortResults cost l) (sortResults cost' l') := by
  induction h with
  | nil => exact .nil
  | @cons a a' l l' ha hl ih => exact insert_dominated ih (sortResults_sorted _ _) (sortResults_sorted _ _) ha

/-! ## One run -/

section
variable {σ κ ρ V C : Type} [LinearOrder C]

/-- The best cost is never given up. -/
structure Anneal.Improves (A : Anneal σ κ ρ V) (best : σ → ℤ) (part : κ → C) : Prop where
  update : ∀ n b o o', A.update n b o = some (.ok o') → best o' ≤ best o
  finish : ∀ o o' k k', best o' ≤ best o → A.finish o = some (.ok k) → A.finish o' = some (.ok k') → part k' ≤ part k

variable {A : Anneal σ κ ρ V} {best : σ → ℤ} {part : κ → C}

theorem Anneal.runN_append (A : Anneal σ κ ρ V) : ∀ (l l' : List ℚ) (n : ℕ) (o o' : σ), A.runN n (l ++ l') o = some (.ok o') →
    ∃ o1, A.runN n l o = some (.ok o1) ∧ A.runN (n + l.length) l' o1 = some (.ok o')
  | [], l', n, o, o', h => ⟨o, rfl, by simpa using h⟩
  | b :: l, l', n, o, o', h => by
    simp only [List.cons_append, Anneal.runN] at h ⊢
    revert h
    rcases A.update n b o with _ | (_ | o1)
    · intro h; cases h
    · intro h; cases h
    · intro h
      obtain ⟨o2, h1, h2⟩ := A.runN_append l l' (n + 1) o1 o' h
      refine ⟨o2, h1, ?_⟩
      rw [List.length_cons]
      have : n + (l.length + 1) = n + 1 + l.length := by omega
      rw [this]
      exact h2

theorem Anneal.Improves.runN (hA : A.Improves best part) : ∀ (l : List ℚ) (n : ℕ) (o o' : σ), A.runN n l o = some (.ok o') → best o' ≤ best o
  | [], n, o, o', h => by
    simp only [Anneal.runN, Option.some.injEq, Except.ok.injEq] at h
    exact h ▸ le_refl _
  | b :: l, n, o, o', h => by
    simp only [Anneal.runN] at h
    revert h
    rcases hu : A.update n b o with _ | (_ | o1)
    · intro h; cases h
    · intro h; cases h
    · intro h
      exact (Anneal.Improves.runN hA l (n + 1) o1 o' h).trans (hA.update n b o o1 hu)

theorem Anneal.Improves.parts (hA : A.Improves best part) {bs bs' : List ℚ} {L L' seed : ℕ} (hpre : bs.take L <+: bs'.take L') {B : Option ℕ}
    {ps : List (List (ℕ × ℕ))} {ks : List κ} (h : Parts A bs L seed B ps ks) :
    ∀ {ks' : List κ}, Parts A bs' L' seed none ps ks' → List.Forall₂ (fun k k' => part k' ≤ part k) ks ks' := by
  induction h with
  | nil => intro ks' h'; cases h'; exact .nil
  | empty h ih =>
    intro ks' h'
    cases h' with
    | empty h' => exact .cons le_rfl (ih h')
    | path hne => exact (hne rfl).elim
  | @path B p ps k ks o o' hne hm hr hf h ih =>
    intro ks' h'
    cases h' with
    | empty h' => exact (hne rfl).elim
    | @path _ _ _ k' ks' q q' _ hm' hr' hf' h' =>
      rw [hm] at hm'
      cases hm'
      refine .cons ?_ (ih h')
      have h1 : bs.take (spend B L) <+: bs'.take L' := by
        refine (List.take_prefix_take_left ?_).trans hpre
        unfold spend; split <;> omega
      obtain ⟨l, hl⟩ := h1
      have hr'' : A.runN 0 (bs'.take L') o = some (.ok q') := hr'
      rw [← hl] at hr''
      obtain ⟨o1, g1, g2⟩ := A.runN_append _ _ _ _ _ hr''
      rw [hr] at g1
      cases g1
      exact hA.finish _ _ _ _ (hA.runN _ _ _ _ g2) hf hf'

/-- A run that is not stopped has one result. -/
theorem parts_unique {bs bs' : List ℚ} {L L' seed : ℕ} (heq : bs.take L = bs'.take L') {B : Option ℕ} {ps : List (List (ℕ × ℕ))} {ks : List κ}
    (h : Parts A bs L seed B ps ks) : B = none → ∀ {ks' : List κ}, Parts A bs' L' seed none ps ks' → ks = ks' := by
  induction h with
  | nil => intro _ ks' h'; cases h'; rfl
  | empty h ih =>
    intro hB ks' h'
    cases h' with
    | empty h' => rw [ih hB h']
    | path hne => exact (hne rfl).elim
  | @path B p ps k ks o o' hne hm hr hf h ih =>
    intro hB ks' h'
    subst hB
    cases h' with
    | empty h' => exact (hne rfl).elim
    | @path _ _ _ k' ks' q q' _ hm' hr' hf' h' =>
      rw [hm] at hm'
      cases hm'
      have hr1 : A.runN 0 (bs.take L) o = some (.ok o') := hr
      have hr2 : A.runN 0 (bs'.take L') o = some (.ok q') := hr'
      rw [heq, hr2] at hr1
      cases hr1
      rw [hf] at hf'
      cases hf'
      rw [ih rfl h']

theorem run_unique {bs bs' : List ℚ} {L L' seed : ℕ} (heq : bs.take L = bs'.take L') {q q' : Prop} (hq : q) (hq' : q') {r r' : ρ}
    (h : RunOk A bs L q seed r) (h' : RunOk A bs' L' q' seed r') : r = r' := by
  obtain ⟨B, ps, ks, h1, h2, h3, h4⟩ := h
  obtain ⟨B', ps', ks', g1, g2, g3, g4⟩ := h'
  rw [h2] at g2
  cases g2
  rw [g1 hq'] at g3
  rw [parts_unique heq h3 (h1 hq) g3, g4] at h4
  cases h4; rfl

theorem run_dominated (hA : A.Improves best part) {cost : ρ → C} (htot : ∀ ks ks' r r', List.Forall₂ (fun k k' => part k' ≤ part k) ks ks' →
    A.total ks = .ok r → A.total ks' = .ok r' → cost r' ≤ cost r) {bs bs' : List ℚ} {L L' seed : ℕ} (hpre : bs.take L <+: bs'.take L') {q q' : Prop} (hq' : q')
    {r r' : ρ} (h : RunOk A bs L q seed r) (h' : RunOk A bs' L' q' seed r') : cost r' ≤ cost r := by
  obtain ⟨B, ps, ks, h1, h2, h3, h4⟩ := h
  obtain ⟨B', ps', ks', g1, g2, g3, g4⟩ := h'
  rw [h2] at g2
  cases g2
  rw [g1 hq'] at g3
  exact htot _ _ _ _ (hA.parts hpre h3 g3) h4 g4

end

/-! ## The optimizers keep their minimum -/

section
variable {σ P R W : Type} [LinearOrder P] [AddCommGroup R] [LinearOrder R]

theorem Walk.body_min (g : Prng σ P) (m : CostModel R) (prob : R → R → P) (w : Walk σ R) (a c d e : ℕ) :
    (Walk.body g m prob w a c d e).o.minTotal = w.o.minTotal := by
  unfold Walk.body
  dsimp only
  split <;> rfl

theorem Walk.run_min (g : Prng σ P) (m : CostModel R) (prob : R → R → P) : ∀ (k : ℕ) (w w' : Walk σ R), Walk.run g m prob k w = some w' →
    w'.o.minTotal = w.o.minTotal
  | 0, _, _, h => by cases h
  | k + 1, w, w', h => by
    unfold Walk.run at h
    split at h
    · cases h; rfl
    · rw [Walk.run_min g m prob k _ _ h, Walk.body_min]

theorem InfOpt.update_min {g : Prng σ P} {m : CostModel R} {o o' : InfOpt σ R} {prob : R → R → P} (h : o.update g m prob = some o') :
    o'.minTotal ≤ o.minTotal := by
  unfold InfOpt.update at h
  dsimp only at h
  split at h
  · cases h; exact le_rfl
  · rw [Option.map_eq_some_iff] at h
    obtain ⟨w, hw, rfl⟩ := h
    have := Walk.run_min _ _ _ _ _ _ hw
    unfold InfOpt.updateMin
    split
    · next hlt => exact hlt.le.trans (le_of_eq this)
    · exact le_of_eq this

variable [AddCommGroup W] [LinearOrder W]

theorem FwWalk.body_min {g : FwPrng σ P} {m : CostModel R} {wm : WidthModel W} {prob : R → R → P} {w w' : FwWalk σ R W} {a c d e : ℕ}
    (h : FwWalk.body g m wm prob w a c d e = .ok w') : w'.o.inf.minTotal = w.o.inf.minTotal := by
  unfold FwWalk.body at h
  dsimp only at h
  split at h
  · split at h <;> (cases h; rfl)
  · split at h
    · split at h
      · cases h
      · split at h
        · split at h
          · cases h
          · split at h <;> (cases h; rfl)
        · cases h; rfl
    · cases h; rfl

theorem FwWalk.run_min (g : FwPrng σ P) (m : CostModel R) (wm : WidthModel W) (prob : R → R → P) : ∀ (k : ℕ) (w w' : FwWalk σ R W),
    FwWalk.run g m wm prob k w = .ok w' → w'.o.inf.minTotal = w.o.inf.minTotal
  | 0, _, _, h => by cases h
  | k + 1, w, w', h => by
    unfold FwWalk.run at h
    split at h
    · cases h; rfl
    · split at h
      · cases h
      · next w1 hb => rw [FwWalk.run_min g m wm prob k _ _ h, FwWalk.body_min hb]

theorem FwOpt.update_min {g : FwPrng σ P} {m : CostModel R} {wm : WidthModel W} {o o' : FwOpt σ R W} {prob : R → R → P} {u : Bool}
    (h : o.update g m wm prob u = .ok o') : o'.inf.minTotal ≤ o.inf.minTotal := by
  unfold FwOpt.update at h
  dsimp only at h
  split at h
  · cases h; exact le_rfl
  · split at h
    · cases h
    · next w hw =>
      have h1 := FwWalk.run_min _ _ _ _ _ _ _ hw
      split at h
      · cases h
      · next o1 ho =>
        have h2 : o1.inf.minTotal = w.o.inf.minTotal := by
          unfold FwOpt.updateSlices at ho
          split at ho
          · split at ho
            · cases ho
            · split at ho
              · cases ho
              · split at ho <;> (cases ho; rfl)
          · cases ho; rfl
        cases h
        unfold FwOpt.updateMin
        split
        · next hlt => exact hlt.le.trans (le_of_eq (h2.trans h1))
        · exact le_of_eq (h2.trans h1)

end

/-! ## The apps -/

section
variable {ι τ σ P V C : Type} [DecidableEq ι] [LinearOrder P] [LinearOrder C]

theorem inf_improves {pr : Printer C} (hpr : pr.Mono) (E : SaEnv ι τ σ P V) (N : NetworkRec ι) (cm : PyCM ι) :
    (infAnnealWith pr E N cm).Improves (fun o => o.1.core.minTotal) InfPartOf.cost where
  update n b o o' h := by
    simp only [infAnnealWith, Option.map_eq_some_iff, Except.ok.injEq] at h
    obtain ⟨c, hc, rfl⟩ := h
    exact InfOpt.update_min hc
  finish o o' k k' hb h h' := by
    have key : ∀ (o : PyInf ι σ ℤ × CostModel ℤ) k, (infAnnealWith pr E N cm).finish o = some (.ok k) → k.cost = pr.shown o.1.core.minTotal := by
      intro o k h
      simp only [infAnnealWith] at h
      split at h
      · cases h
      · rw [Option.map_eq_some_iff] at h
        obtain ⟨p, -, hp⟩ := h
        cases hp; rfl
    rw [key _ _ h, key _ _ h']
    exact hpr.shown _ _ hb

theorem inf_total_mono {pr : Printer C} (hpr : pr.Mono) (n : ℕ) (ks ks' : List (InfPartOf C)) (r r' : InfResultOf C)
    (h : List.Forall₂ (fun k k' => k'.cost ≤ k.cost) ks ks') (h1 : infTotalWith pr n ks = .ok r) (h2 : infTotalWith pr n ks' = .ok r') : r'.cost ≤ r.cost := by
  have key : ∀ (ks : List (InfPartOf C)) r, infTotalWith pr n ks = .ok r → r.cost = pr.total (ks.map InfPartOf.cost) := by
    intro ks r h
    unfold infTotalWith at h
    dsimp only at h
    split at h
    · cases h
    · cases h; rfl
  rw [key _ _ h1, key _ _ h2]
  refine hpr.total _ _ ?_
  rw [List.forall₂_map_left_iff, List.forall₂_map_right_iff]
  exact h.flip

variable {W : Type} [AddCommGroup W] [LinearOrder W]

theorem fw_improves {pr : Printer C} (hpr : pr.Mono) (E : SaEnv ι τ σ P V) (N : NetworkRec ι) (cm : PyCM ι) (log2W : ℕ → W) (maxWidth : W) (us : ℤ) :
    (fwAnnealWith pr E N cm log2W maxWidth us).Improves (fun o => o.opt.core.inf.minTotal) FwPartOf.cost where
  update n b o o' h := by
    simp only [fwAnnealWith] at h
    split at h
    · cases h
    · split at h
      · cases h
      · cases h
      · next c hc =>
        cases h
        exact FwOpt.update_min hc
  finish o o' k k' hb h h' := by
    have key : ∀ (o : FwRun ι σ W) k, (fwAnnealWith pr E N cm log2W maxWidth us).finish o = some (.ok k) → k.cost = pr.shown o.opt.core.inf.minTotal := by
      intro o k h
      simp only [fwAnnealWith] at h
      split at h
      · cases h
      · split at h
        · cases h
        · rw [Option.map_eq_some_iff] at h
          obtain ⟨p, -, hp⟩ := h
          cases hp; rfl
    rw [key _ _ h, key _ _ h']
    exact hpr.shown _ _ hb

theorem fw_total_mono {pr : Printer C} (hpr : pr.Mono) (n : ℕ) (ks ks' : List (FwPartOf C ι)) (r r' : FwResultOf C ι)
    (h : List.Forall₂ (fun k k' => k'.cost ≤ k.cost) ks ks') (h1 : fwTotalWith pr n ks = .ok r) (h2 : fwTotalWith pr n ks' = .ok r') : r'.cost ≤ r.cost := by
  have key : ∀ (ks : List (FwPartOf C ι)) r, fwTotalWith pr n ks = .ok r → r.cost = pr.total (ks.map FwPartOf.cost) := by
    intro ks r h
    unfold fwTotalWith at h
    dsimp only at h
    split at h
    · cases h
    · split at h
      · cases h
      · cases h; rfl
  rw [key _ _ h1, key _ _ h2]
  refine hpr.total _ _ ?_
  rw [List.forall₂_map_left_iff, List.forall₂_map_right_iff]
  exact h.flip

theorem exactPrinter_mono : exactPrinter.Mono where
  shown _ _ h := h
  total l l' h := by
    change l.sum ≤ l'.sum
    induction h with
    | nil => exact le_rfl
    | cons h _ ih => simp only [List.sum_cons]; omega

theorem costPrinter_mono (fixed : Bool) : (costPrinter fixed).Mono where
  shown _ _ h := shownCost_mono fixed h
  total l l' h := by
    change decimalSum l ≤ decimalSum l'
    unfold decimalSum
    have : ∀ a b : ℚ, a ≤ b → l.foldl (fun a x => roundSig 28 (a + x)) a ≤ l'.foldl (fun a x => roundSig 28 (a + x)) b := by
      induction h with
      | nil => intro a b h; exact h
      | cons h _ ih =>
        intro a b hab
        exact ih _ _ (roundSig_mono (by norm_num) (add_le_add hab h))
    exact this 0 0 le_rfl

end

/-! ## Seeds -/

theorem choices_add {γ : Type} (random : γ → ℚ × γ) (size : ℕ) : ∀ (a b : ℕ) (s : γ),
    choices random size (a + b) s = ((choices random size a s).1 ++ (choices random size b (choices random size a s).2).1,
      (choices random size b (choices random size a s).2).2)
  | 0, b, s => by simp [choices]
  | a + 1, b, s => by
    have : a + 1 + b = (a + b) + 1 := by omega
    rw [this]
    simp only [choices, choices_add random size a b, List.cons_append]

theorem forall2_unique {α β : Type} {R : α → β → Prop} (huniq : ∀ a b b', R a b → R a b' → b = b') {l : List α} {l' m' : List β}
    (h : List.Forall₂ R l l') (h2 : List.Forall₂ R l m') : l' = m' := by
  induction h generalizing m' with
  | nil => cases h2; rfl
  | cons h _ ih => cases h2 with | cons c1 c2 => rw [huniq _ _ _ h c1, ih c2]

theorem forall2_sublist {α β : Type} {R : α → β → Prop} {l m : List α} (h : l.Sublist m) : ∀ {m' : List β}, List.Forall₂ R m m' →
    ∃ w, w.Sublist m' ∧ List.Forall₂ R l w := by
  induction h with
  | slnil => intro m' h; cases h; exact ⟨[], .slnil, .nil⟩
  | cons a _ ih =>
    intro m' h
    cases h with | cons h1 h2 =>
    obtain ⟨w, g1, g2⟩ := ih h2
    exact ⟨w, .cons _ g1, g2⟩
  | cons_cons a _ ih =>
    intro m' h
    cases h with | cons h1 h2 =>
    obtain ⟨w, g1, g2⟩ := ih h2
    exact ⟨_ :: w, .cons_cons _ g1, .cons h1 g2⟩

theorem forall2_subperm {α β : Type} {R R' : α → β → Prop} (huniq : ∀ a b b', R a b → R' a b' → b = b') {l m : List α} (hlm : l.Subperm m)
    {l' m' : List β} (h : List.Forall₂ R l l') (h' : List.Forall₂ R' m m') : l'.Subperm m' := by
  obtain ⟨l0, hp, hs⟩ := hlm
  obtain ⟨w, hw, hlw⟩ := forall2_sublist hs h'
  obtain ⟨v, hv, hvw⟩ := List.perm_comp_forall₂ hp.symm hlw
  have : l' = v := by
    clear hs hp hw hvw hlw
    induction h generalizing v with
    | nil => cases hv; rfl
    | cons h _ ih => cases hv with | cons c1 c2 => rw [huniq _ _ _ h c1, ih _ c2]
  rw [this]
  exact ⟨w, hvw.symm, hw⟩

theorem forall2_perm {α β : Type} {R R' : α → β → Prop} (huniq : ∀ a b b', R a b → R' a b' → b = b') {l m : List α} (hlm : l.Perm m)
    {l' m' : List β} (h : List.Forall₂ R l l') (h' : List.Forall₂ R' m m') : l'.Perm m' :=
  (forall2_subperm huniq hlm.subperm h h').perm_of_length_le (by rw [← h.length_eq, ← h'.length_eq, hlm.length_eq])

/-! ## The temperatures -/

theorem checkSteps_nat {n : Option ℕ} {n' : Option ℕ} (h : checkSteps (n.map fun k : ℕ => (k : ℚ)) = .ok n') : n' = n ∧ ∀ k, n = some k → 0 < k := by
  rcases n with _ | k
  · simp only [Option.map_none, checkSteps, Except.ok.injEq] at h
    exact ⟨h.symm, by simp⟩
  · simp only [Option.map_some, checkSteps] at h
    split at h
    · cases h
    · next hk =>
      rw [not_or, not_le] at hk
      have hf : (k : ℚ).floor = k := by
        have := Rat.floor_intCast (k : ℤ)
        simpa using this
      cases h
      refine ⟨by rw [hf]; simp, fun j hj => ?_⟩
      cases hj
      exact_mod_cast hk.2

end TNCO
