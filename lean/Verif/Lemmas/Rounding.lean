import Verif.Lemmas.Shadow
import Verif.Lemmas.Float
import Verif.Lemmas.Slices
import Mathlib.Algebra.Order.Group.Synonym
import Mathlib.Data.Prod.Lex
import Mathlib.Algebra.Order.BigOperators.Ring.Finset

/-! The rounded costs of an infinite-memory optimizer. -/

namespace TNCO
open PTree

section
variable {F : FloatFormat} {p : ℕ}

/-- The dimensions of the indices in `U` are positive. -/
def PosDims (dims : Dims) (U : ISet) : Prop :=
  match dims with
  | .int d => 1 ≤ d
  | .vec l => ∀ i ∈ U, 1 ≤ l.getD i 0

theorem PosDims.mono {dims : Dims} {U V : ISet} (h : PosDims dims U) (hV : V ⊆ U) : PosDims dims V := by
  cases dims with
  | int d => exact h
  | vec l => exact fun i hi => h i (hV hi)

theorem posDims_get {dims : Dims} {U : ISet} (h : PosDims dims U) : 1 ≤ simpleGet dims U := by
  cases dims with
  | int d => exact Nat.one_le_pow _ _ h
  | vec l => exact Finset.prod_pos (f := fun i => l.getD i 0) fun i hi => h i hi

theorem fold_within (hp : 1 ≤ p) (hF : p ≤ F.prec) (f : ℕ → ℕ) (l : List ℕ) (hl : ∀ i ∈ l, 1 ≤ f i) :
    ∀ {k : ℕ} {x : Fl F} {T : ℕ}, 1 ≤ T → Within F p k x T →
      Within F p (k + 2 * l.length) (l.foldl (fun c i => c * F.ofNat (f i)) x) ((T * (l.map f).prod : ℕ) : ℚ) := by
  induction l with
  | nil => intro k x T hT h; simpa using h
  | cons a l ih =>
    intro k x T hT h
    have ha := hl a (by simp)
    have h1 := within_mul hp hF (by exact_mod_cast hT) (by exact_mod_cast ha) h (within_ofNat hp hF (f a))
    have h2 := ih (fun i hi => hl i (by simp [hi])) (T := T * f a) (Nat.mul_pos hT ha) (by push_cast; exact h1)
    simp only [List.foldl_cons, List.map_cons, List.prod_cons, List.length_cons]
    rw [← Nat.mul_assoc]
    refine h2.mono hp (by omega) (by positivity)

theorem positions_prod (f : ℕ → ℕ) (s : ISet) : ((ISet.positions s).map f).prod = ∏ i ∈ s, f i := by
  have : (ISet.positions s).toFinset = s := by
    ext x; rw [List.mem_toFinset]; exact ISet.mem_positions
  conv_rhs => rw [← this]
  rw [List.prod_toFinset f (ISet.positions_nodup s)]

theorem positions_length (s : ISet) : (ISet.positions s).length = s.card := by
  have : (ISet.positions s).toFinset = s := by
    ext x; rw [List.mem_toFinset]; exact ISet.mem_positions
  conv_rhs => rw [← this]
  rw [List.toFinset_card_of_nodup (ISet.positions_nodup s)]

/-- The power of a common dimension is computed in double precision. -/
def PowFits (F : FloatFormat) (p : ℕ) (dims : Dims) : Prop :=
  match dims with
  | .int _ => p ≤ 53 ∧ F.emax ≤ 1023
  | .vec _ => True

theorem convert_within {D : FloatFormat} (hp : 1 ≤ p) (hF : p ≤ F.prec) (hD : p ≤ D.prec) (hE : F.emax ≤ D.emax) {q : ℚ} (hq : 0 ≤ q) :
    Within F p 2 (F.convert (D.round q)) q := by
  have h := within_round (F := D) hp hD (k := 0) (q := q) (T := q) hq (by simp) (by simp)
  rcases h with ⟨q', e, h1, h2, h3⟩ | ⟨e, h1⟩
  · rw [e]
    exact within_round hp hF (within_nonneg hp hq h2) h2 h3
  · rw [e]
    refine Or.inr ⟨rfl, ?_⟩
    have : (2 : ℚ) ^ (F.emax + 1) ≤ 2 ^ (D.emax + 1) := pow_le_pow_right₀ (by norm_num) (by omega)
    exact this.trans (h1.trans (hi_pow p (by omega) hq))

theorem floatGet_within (hp : 1 ≤ p) (hF : p ≤ F.prec) {dims : Dims} {s : ISet} (hd : PosDims dims s) (hw : PowFits F p dims) :
    Within F p (2 * s.card + 2) (floatGet F dims s) (simpleGet dims s) := by
  cases dims with
  | int d =>
    refine Within.mono hp (k := 2) (by omega) (by positivity) ?_
    have := convert_within (F := F) (D := float64) hp hF hw.1 hw.2 (q := (d : ℚ) ^ s.card) (by positivity)
    rw [simpleGet, Nat.cast_pow]
    exact this
  | vec l =>
    have h := fold_within hp hF (fun i => l.getD i 0) (ISet.positions s) (fun i hi => hd i (ISet.mem_positions.1 hi)) (le_refl 1)
      (by simpa using within_ofNat hp hF 1)
    rw [positions_prod, positions_length, Nat.one_mul] at h
    exact h.mono hp (by omega) (by positivity)

theorem floatSparseGet_within (hp : 1 ≤ p) (hF : p ≤ F.prec) {dims : Dims} {s sparse : ISet} {n : ℕ} (hn : 1 ≤ n) (hd : PosDims dims s)
    (hw : PowFits F p dims) : Within F p (2 * s.card + 5) (floatSparseGet F sparse n dims s) (sparseGet sparse n dims s) := by
  have h1 := floatGet_within hp hF (hd.mono Finset.sdiff_subset) hw (s := s \ sparse)
  have h2 := floatGet_within hp hF (hd.mono Finset.inter_subset_left) hw (s := s ∩ sparse)
  have h3 := (within_ofNat hp hF n (F := F)).mono hp (l := 2 * (s ∩ sparse).card + 2) (by omega) (by positivity)
  have p1 := posDims_get (hd.mono (Finset.sdiff_subset (s := s) (t := sparse)))
  have p2 := posDims_get (hd.mono (Finset.inter_subset_left (s₁ := s) (s₂ := sparse)))
  have h4 := within_mul hp hF (by exact_mod_cast p1) (le_min (by exact_mod_cast p2) (by exact_mod_cast hn)) h1 (within_min hp h2 h3)
  have hc : (s \ sparse).card + (s ∩ sparse).card = s.card := Finset.card_sdiff_add_card_inter s sparse
  have e : ((sparseGet sparse n dims s : ℕ) : ℚ) = (simpleGet dims (s \ sparse) : ℚ) * min (simpleGet dims (s ∩ sparse) : ℚ) (n : ℚ) := by
    unfold sparseGet
    push_cast
    congr 1
    split
    · next h => rw [min_eq_left (by exact_mod_cast h.le)]
    · next h => rw [min_eq_right (by exact_mod_cast not_lt.1 h)]
  rw [e]
  refine h4.mono hp (by omega) (by positivity)

/-! ## The shadow: the exact cost, twice the number of contractions, and the number of contractions outside `U` -/

abbrev Ledger : Type := ℤ ×ₗ (ℤ ×ₗ ℤ)

def ledger (a b c : ℤ) : Ledger := toLex (a, toLex (b, c))

theorem ledger_add (a b c a' b' c' : ℤ) : ledger a b c + ledger a' b' c' = ledger (a + a') (b + b') (c + c') := rfl

theorem ledger_inj {a b c a' b' c' : ℤ} (h : ledger a b c = ledger a' b' c') : a = a' ∧ b = b' ∧ c = c' := by
  have h1 := congrArg (fun x => (ofLex x).1) h
  have h2 := congrArg (fun x => (ofLex (ofLex x).2).1) h
  have h3 := congrArg (fun x => (ofLex (ofLex x).2).2) h
  exact ⟨h1, h2, h3⟩

/-- Exact costs with the books kept. -/
def ledgerModel (U : ISet) (cost : ISet → ℕ) : CostModel Ledger := ⟨fun s => ledger (cost s) 2 (if s ⊆ U then 0 else 1)⟩

/-- The contraction costs of a floating-point cost model, for index sets within `U`. -/
structure RoundedCosts (F : FloatFormat) (p kc : ℕ) (U : ISet) (m : CostModel (Fl F)) (cost : ISet → ℕ) : Prop where
  one : 1 ≤ p
  prec : p ≤ F.prec
  get : ∀ s ⊆ U, Within F p kc (m.get s) (cost s)

def LedgerC (F : FloatFormat) (p kc : ℕ) (x : Fl F) (a : Ledger) : Prop :=
  ∃ T b : ℕ, a = ledger T 2 b ∧ (b = 0 → Within F p kc x T)

def LedgerD (F : FloatFormat) (p kc : ℕ) (x : Fl F) (a : Ledger) : Prop :=
  ∃ T n b : ℕ, a = ledger T n b ∧ (b = 0 → Within F p (kc + n) x T)

theorem ledger_rel {kc : ℕ} {U : ISet} {m : CostModel (Fl F)} {cost : ISet → ℕ} (h : RoundedCosts F p kc U m cost) :
    ShadowRel m (ledgerModel U cost) (LedgerC F p kc) (LedgerD F p kc) := by
  refine ⟨fun s => ?_, ⟨0, 0, 0, rfl, fun _ => within_zero _⟩, ?_, ?_⟩
  · by_cases hs : s ⊆ U
    · exact ⟨cost s, 0, by simp [ledgerModel, hs], fun _ => h.get s hs⟩
    · exact ⟨cost s, 1, by simp [ledgerModel, hs], by simp⟩
  · rintro z c x a y b ⟨T, u, rfl, hz⟩ ⟨S, n, v, rfl, hx⟩ ⟨V, k, w, rfl, hy⟩
    refine ⟨T + S + V, n + k + 2, u + v + w, ?_, fun e => ?_⟩
    · rw [ledger_add, ledger_add]; push_cast; congr 1; ring
    · have h1 := within_add h.one h.prec (n := kc + n) (by omega) (le_refl _) (by positivity) (by positivity) (hz (by omega)) (hx (by omega))
      have h2 := within_add h.one h.prec (n := kc + n + k + 1) (by omega) (by omega) (by positivity) (by positivity) h1 (hy (by omega))
      push_cast
      exact h2.mono h.one (by omega) (by positivity)
  · rintro x a y b z c ⟨S, n, v, rfl, hx⟩ ⟨V, k, w, rfl, hy⟩ ⟨T, u, rfl, hz⟩
    refine ⟨S + V + T, n + k + 2, v + w + u, ?_, fun e => ?_⟩
    · rw [ledger_add, ledger_add]; push_cast; rfl
    · have h1 := within_add h.one h.prec (n := kc + n + k) (by omega) (by omega) (by positivity) (by positivity) (hx (by omega)) (hy (by omega))
      have h2 := within_add h.one h.prec (n := kc + n + k + 1) (by omega) (by omega) (by positivity) (by positivity) h1 (hz (by omega))
      push_cast
      exact h2.mono h.one (by omega) (by positivity)

theorem PTree.inner_card (t : PTree) : t.postorder.length + 1 = 2 * t.leaves.length := by
  induction t with
  | leaf p => rfl
  | node p l r ihl ihr => simp only [postorder, leaves, List.length_append, List.length_cons, List.length_nil]; omega

theorem treeCost_ledger {U : ISet} {cost : ISet → ℕ} {inds : ℕ → ISet} {t : PTree} (hloc : t.All (LocQ inds)) (hU : ∀ q ∈ t.leaves, inds q ⊆ U) :
    inds t.root ⊆ U ∧ treeCost (ledgerModel U cost).get inds t = ledger (treeCost cost inds t : ℕ) (2 * (t.leaves.length - 1 : ℤ)) 0 := by
  induction t with
  | leaf q => exact ⟨hU q (by simp [leaves]), by simp [treeCost, leaves, ledger]; rfl⟩
  | node q l r ihl ihr =>
    obtain ⟨h1, h2, h3⟩ := hloc
    simp only [leaves, List.mem_append] at hU
    obtain ⟨l1, l2⟩ := ihl h2 fun i hi => hU i (Or.inl hi)
    obtain ⟨r1, r2⟩ := ihr h3 fun i hi => hU i (Or.inr hi)
    have hs := Finset.union_subset l1 r1
    refine ⟨h1.2.trans hs, ?_⟩
    rw [treeCost, l2, r2]
    simp only [ledgerModel, hs, if_true, ledger_add, treeCost, leaves, List.length_append]
    push_cast
    congr 1
    ring

variable {σ P : Type} [LE P] [DecidableLE P]

/-- The total cost of an optimizer with a shadow. -/
theorem shadow_total {kc : ℕ} {U : ISet} {cost : ISet → ℕ} {o : InfOpt σ (Fl F)} {v : InfOpt σ Ledger} {t : PTree}
    (hI : OInv (ledgerModel U cost) none false v t) (hS : Shadow (LedgerC F p kc) (LedgerD F p kc) o v)
    (hU : ∀ q < o.ctree.tree.nLeaves, o.ctree.inds q ⊆ U) :
    WellFormed o.ctree.tree t ∧ t.All (LocQ o.ctree.inds) ∧
      Within F p (kc + (o.ctree.tree.size - 1)) o.totalCost (treeCost cost o.ctree.inds t : ℕ) := by
  have hwf : WellFormed v.ctree.tree t := hI.wf
  have hloc : t.All (LocQ v.ctree.inds) := by
    have := hI.nodes
    unfold NodeInv at this
    rw [PTree.all_and] at this
    exact this.1
  rw [hS.ctree] at hU ⊢
  refine ⟨hwf, hloc, ?_⟩
  have htot := hI.total.trans (sum_eq_treeCost hI.nodes fun p hp => (hI.leaf p hp).2.1)
  simp only [Ctx.plug] at htot
  rw [(treeCost_ledger hloc fun q hq => hU q (by unfold Tree.nLeaves; exact (hwf.leaves q).1 hq)).2] at htot
  obtain ⟨T, n, b, e, hw⟩ := hS.pc (v.ctree.tree.size - 1)
  change v.cost.partialCost (v.ctree.tree.size - 1) = _ at htot
  rw [e] at htot
  obtain ⟨e1, e2, e3⟩ := ledger_inj htot
  have e1 : T = treeCost cost v.ctree.inds t := by exact_mod_cast e1
  have hn : n = v.ctree.tree.size - 1 := by
    obtain ⟨h1, h2, h3⟩ := hwf.size_eq
    have := t.inner_card
    have h4 : 1 ≤ t.leaves.length := by omega
    have h5 : v.ctree.tree.size = t.postorder.length := by omega
    omega
  have hb : b = 0 := by exact_mod_cast e3
  have := hw hb
  rw [hn, e1] at this
  unfold InfOpt.totalCost
  rw [hS.ctree]
  exact this

omit [LE P] [DecidableLE P] in
/-- The sum over the contractions in the order of the traversal. -/
theorem foldl_within {kc : ℕ} {U : ISet} {m : CostModel (Fl F)} {cost : ISet → ℕ} (h : RoundedCosts F p kc U m cost) {c : CTree} :
    ∀ {t : PTree} {par : Option ℕ}, t.Encodes c.tree.nodes par → t.All (LocQ c.inds) → (∀ q ∈ t.leaves, c.inds q ⊆ U) →
      ∀ {k : ℕ} {x : Fl F} {T : ℕ}, Within F p (kc + k) x T →
        Within F p (kc + (k + (t.leaves.length - 1))) (t.postorder.foldl (fun t pos =>
          match (c.tree.nodes pos).c0, (c.tree.nodes pos).c1 with
          | some b, some d => t + m.contractionCost (c.inds pos) (c.inds b) (c.inds d)
          | _, _ => t) x) ((T + treeCost cost c.inds t : ℕ) : ℚ) := by
  intro t
  induction t with
  | leaf q =>
    intro par he hl hU k x T hx
    have hN : c.tree.nodes q = _ := he
    simpa [postorder, hN, leaves, treeCost] using hx
  | node q l r ihl ihr =>
    intro par he hl hU k x T hx
    have hl0 := hl
    obtain ⟨h1, h2, h3⟩ := hl
    simp only [leaves, List.mem_append] at hU
    obtain ⟨hN, e2, e3⟩ := he
    have hl1 := ihl e2 h2 (fun i hi => hU i (Or.inl hi)) hx
    have hr1 := ihr e3 h3 (fun i hi => hU i (Or.inr hi)) hl1
    have hsub : c.inds l.root ∪ c.inds r.root ⊆ U :=
      Finset.union_subset (treeCost_ledger (cost := cost) h2 fun i hi => hU i (Or.inl hi)).1
        (treeCost_ledger (cost := cost) h3 fun i hi => hU i (Or.inr hi)).1
    have this := within_add h.one h.prec (n := kc + (k + (l.leaves.length - 1) + (r.leaves.length - 1))) (le_refl _) (by omega) (by positivity)
      (by positivity) hr1 (h.get _ hsub)
    have p1 := l.inner_card
    have p2 := r.inner_card
    simp only [postorder, List.foldl_append]
    simp only [List.foldl_cons, List.foldl_nil, hN]
    simp only [CostModel.contractionCost, union_eq_of_loc hl0.1.1 hl0.1.2] at this ⊢
    have e : ((T + treeCost cost c.inds (node q l r) : ℕ) : ℚ) =
        ((T + treeCost cost c.inds l + treeCost cost c.inds r : ℕ) : ℚ) + (cost (c.inds l.root ∪ c.inds r.root) : ℕ) := by
      rw [treeCost]; push_cast; ring
    rw [e]
    refine this.mono h.one ?_ (by positivity)
    rw [leaves, List.length_append]
    omega

omit [LE P] [DecidableLE P] in
theorem getCost_within {kc : ℕ} {U : ISet} {m : CostModel (Fl F)} {cost : ISet → ℕ} (h : RoundedCosts F p kc U m cost) {c : CTree} {t : PTree}
    (hwf : WellFormed c.tree t) (hloc : t.All (LocQ c.inds)) (hU : ∀ q < c.tree.nLeaves, c.inds q ⊆ U) {x : Fl F}
    (hx : getCost c.fuel m c = some x) : Within F p (kc + (c.tree.size - 1)) x (treeCost cost c.inds t : ℕ) := by
  unfold getCost CTree.fuel at hx
  rw [traverse_eq hwf (le_refl _), Option.map_some, Option.some.injEq] at hx
  have := foldl_within h hwf.enc hloc (fun q hq => hU q (by unfold Tree.nLeaves; exact (hwf.leaves q).1 hq)) (k := 0) (T := 0)
    (by exact_mod_cast within_zero _)
  rw [Nat.zero_add, Nat.zero_add] at this
  rw [← hx]
  refine this.mono h.one ?_ (by positivity)
  obtain ⟨h1, h2, h3⟩ := hwf.size_eq
  omega

/-- How the minimum develops along a history. -/
theorem min_history_shadow {kc : ℕ} {U : ISet} {m : CostModel (Fl F)} {cost : ISet → ℕ} (h : RoundedCosts F p kc U m cost) (g : Prng σ P)
    (probs : List (Fl F → Fl F → P)) : ∀ {o o' : InfOpt σ (Fl F)} {v : InfOpt σ Ledger} {t : PTree},
      OInv (ledgerModel U cost) none false v t → Shadow (LedgerC F p kc) (LedgerD F p kc) o v →
      (∀ q < o.ctree.tree.nLeaves, o.ctree.inds q ⊆ U) → o.ctree.tree.size ≠ 1 → o.minTotal ≠ Flt.nan → o.run g m probs = some o' →
      o'.minTotal ≠ Flt.nan ∧ ¬ o.minTotal < o'.minTotal ∧ (probs ≠ [] → ¬ o'.totalCost < o'.minTotal) ∧
      ((o'.minCtree = o.minCtree ∧ o'.minTotal = o.minTotal) ∨
        ∃ p1 p2 o1, p1 ≠ [] ∧ probs = p1 ++ p2 ∧ o.run g m p1 = some o1 ∧ o'.minCtree = o1.ctree ∧ o'.minTotal = o1.totalCost) := by
  induction probs with
  | nil => rintro o o' v t - - - - hn ⟨⟩; exact ⟨hn, not_lt_self _, by simp, Or.inl ⟨rfl, rfl⟩⟩
  | cons pr ps ih =>
    intro o o' v t hI hS hU hsz hn hrun
    obtain ⟨o1, v1, t1, h1, hi1, hS1, hs1, hm⟩ := update_shadow (ledger_rel h) g pr (by simp) hI hS
    have hr1 : o.run g m [pr] = some o1 := by simp [InfOpt.run, h1]
    simp only [InfOpt.run, h1, Option.bind_some] at hrun
    have hsz1 : o1.ctree.tree.size ≠ 1 := by rw [hS1.ctree, hs1.size, ← hS.ctree]; exact hsz
    have hU1 : ∀ q < o1.ctree.tree.nLeaves, o1.ctree.inds q ⊆ U := by
      intro q hq
      have hn : o1.ctree.tree.nLeaves = o.ctree.tree.nLeaves := by unfold Tree.nLeaves; rw [hS1.ctree, hs1.size, ← hS.ctree]
      rw [hS1.ctree, hs1.leafInds q (by rw [← hS.ctree, ← hn]; exact hq), ← hS.ctree]
      exact hU q (hn ▸ hq)
    have ht1 := (shadow_total hi1 hS1 hU1).2.2.ne_nan
    have hm1 : o1.minTotal ≠ Flt.nan ∧ ¬ o.minTotal < o1.minTotal ∧ ¬ o1.totalCost < o1.minTotal := by
      rcases hm with ⟨a, b, -⟩ | ⟨a | a, b, -⟩
      · rw [b]
        refine ⟨ht1, ?_, not_lt_self _⟩
        intro hlt
        exact flt_asymm hlt a
      · rw [b]; exact ⟨hn, not_lt_self _, a⟩
      · exact absurd a hsz
    obtain ⟨q0, q1, q2, q3⟩ := ih hi1 hS1 hU1 hsz1 hm1.1 hrun
    refine ⟨q0, not_lt_trans' hm1.1 q1 hm1.2.1, ?_, ?_⟩
    · intro _
      cases ps with
      | nil => simp only [InfOpt.run, Option.some.injEq] at hrun; subst hrun; exact hm1.2.2
      | cons a b => exact q2 (by simp)
    · rcases q3 with ⟨a, b⟩ | ⟨p1, p2, o2, hne, rfl, hr, hc, ht⟩
      · rcases hm with ⟨-, c1, c2⟩ | ⟨-, c1, c2⟩
        · exact Or.inr ⟨[pr], ps, o1, by simp, rfl, hr1, a.trans c2, b.trans c1⟩
        · exact Or.inl ⟨a.trans c2, b.trans c1⟩
      · refine Or.inr ⟨pr :: p1, p2, o2, by simp, rfl, ?_, hc, ht⟩
        simp [InfOpt.run, h1, hr]

end

end TNCO
