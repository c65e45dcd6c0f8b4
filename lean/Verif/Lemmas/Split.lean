import Verif.Lemmas.Merge

/-! Splitting paths. -/

namespace TNCO
namespace Linear

section
variable {α : Type} [DecidableEq α]

/-- Contractions that respect a division of the labels. -/
def Closed (p : α → Prop) (c : List (α × α × α)) : Prop :=
  ∀ t ∈ c, (p t.1 ↔ p t.2.2) ∧ (p t.2.1 ↔ p t.2.2)

theorem Ok.filter (p : α → Prop) [DecidablePred p] {c : List (α × α × α)} {L : List α} (hn : L.Nodup) (h : Ok L c)
    (hp : Closed p c) : Ok (L.filter p) (c.filter fun t => p t.1) ∧
      final (L.filter p) (c.filter fun t => p t.1) = (final L c).filter p := by
  induction c generalizing L with
  | nil => exact ⟨trivial, rfl⟩
  | cons t c ih =>
    obtain ⟨x, y, z⟩ := t
    obtain ⟨h1, h2, h3, h4, h5⟩ := h
    obtain ⟨e1, e2⟩ := hp (x, y, z) (by simp)
    simp only at e1 e2
    have hp' : Closed p c := fun t ht => hp t (by simp [ht])
    obtain ⟨i1, i2⟩ := ih (nodup_stepL hn h4) h5 hp'
    have hfe : ∀ (l : List α) (a : α), p a → (l.erase a).filter p = (l.filter p).erase a := by
      intro l a ha
      rw [← List.erase_filter] <;> simp [ha]
    have hfn : ∀ (l : List α) (a : α), l.Nodup → ¬ p a → (l.erase a).filter p = l.filter p := by
      intro l a hl ha
      rw [List.Nodup.erase_eq_filter hl, List.filter_filter]
      refine List.filter_congr fun b _ => ?_
      by_cases hb : p b
      · have : b ≠ a := by rintro rfl; exact ha hb
        simp [hb, this]
      · simp [hb]
    by_cases hz : p z
    · have hx := e1.2 hz
      have hy := e2.2 hz
      have es : (stepL L x y z).filter p = stepL (L.filter p) x y z := by
        unfold stepL
        rw [List.filter_append, hfe _ _ hy, hfe _ _ hx]
        simp [hz]
      rw [es] at i1 i2
      have ef : ((x, y, z) :: c).filter (fun t => p t.1) = (x, y, z) :: c.filter fun t => p t.1 := by
        simp [hx]
      rw [ef]
      refine ⟨⟨by simp [h1, hx], by simp [h2, hy], h3, by simp [h4], i1⟩, i2⟩
    · have hx : ¬ p x := fun h => hz (e1.1 h)
      have hy : ¬ p y := fun h => hz (e2.1 h)
      have es : (stepL L x y z).filter p = L.filter p := by
        unfold stepL
        rw [List.filter_append, hfn _ _ (hn.erase x) hy, hfn _ _ hn hx]
        simp [hz]
      rw [es] at i1 i2
      have ef : ((x, y, z) :: c).filter (fun t => p t.1) = c.filter fun t => p t.1 := by
        simp [hx]
      rw [ef]
      exact ⟨i1, i2⟩

theorem made_filter_sublist (q : α × α × α → Bool) (c : List (α × α × α)) : (made (c.filter q)).Sublist (made c) :=
  (List.filter_sublist).map _

theorem Fresh.filter {L : List α} {c : List (α × α × α)} (h : Fresh L c) (q : α × α × α → Bool) : Fresh L (c.filter q) :=
  ⟨h.1.sublist (made_filter_sublist q c), fun z hz => h.2 z ((made_filter_sublist q c).subset hz)⟩

theorem vals_filter (p : α → Prop) [DecidablePred p] {c : List (α × α × α)} (hp : Closed p c) {τ τ' : α → Term}
    (hτ : ∀ a, p a → τ a = τ' a) {a : α} (ha : p a) : vals τ (c.filter fun t => p t.1) a = vals τ' c a := by
  induction c generalizing τ τ' with
  | nil => exact hτ a ha
  | cons t c ih =>
    obtain ⟨x, y, z⟩ := t
    obtain ⟨e1, e2⟩ := hp (x, y, z) (by simp)
    simp only at e1 e2
    have hp' : Closed p c := fun t ht => hp t (by simp [ht])
    by_cases hz : p z
    · have hx := e1.2 hz
      have hy := e2.2 hz
      rw [show ((x, y, z) :: c).filter (fun t => p t.1) = (x, y, z) :: c.filter fun t => p t.1 by simp [hx]]
      simp only [vals]
      refine ih hp' fun b hb => ?_
      by_cases hbz : b = z
      · subst hbz; simp [hτ _ hx, hτ _ hy]
      · rw [Function.update_of_ne hbz, Function.update_of_ne hbz]; exact hτ b hb
    · have hx : ¬ p x := fun h => hz (e1.1 h)
      rw [show ((x, y, z) :: c).filter (fun t => p t.1) = c.filter fun t => p t.1 by simp [hx]]
      simp only [vals]
      refine ih hp' fun b hb => ?_
      rw [Function.update_of_ne (by rintro rfl; exact hz hb)]; exact hτ b hb

theorem prods_filter (p : α → Prop) [DecidablePred p] (q : ℕ → Prop) [DecidablePred q] {c : List (α × α × α)}
    (hp : Closed p c) {L : List α} (hn : L.Nodup) (hk : Ok L c) {τ τ' : α → Term}
    (hτ : ∀ a, p a → τ a = τ' a)
    (hq : ∀ a ∈ L, (∀ i ∈ (τ' a).tensors, q i) ↔ p a) :
    prods τ (c.filter fun t => p t.1) = (prods τ' c).filter fun t => ∀ i ∈ t.tensors, q i := by
  induction c generalizing τ τ' L with
  | nil => rfl
  | cons t c ih =>
    obtain ⟨x, y, z⟩ := t
    obtain ⟨e1, e2⟩ := hp (x, y, z) (by simp)
    obtain ⟨h1, h2, h3, h4, h5⟩ := hk
    simp only at e1 e2
    have hp' : Closed p c := fun t ht => hp t (by simp [ht])
    have hzq : (∀ i ∈ (Term.pair (τ' x) (τ' y)).tensors, q i) ↔ p z := by
      simp only [Term.tensors, List.mem_append, or_imp, forall_and]
      rw [hq x h1, hq y h2]; tauto
    have hqs : ∀ a ∈ stepL L x y z, (∀ i ∈ (Function.update τ' z (.pair (τ' x) (τ' y)) a).tensors, q i) ↔ p a := by
      intro a ha
      by_cases haz : a = z
      · subst haz; rw [Function.update_self]; exact hzq
      · rw [Function.update_of_ne haz]
        rcases (mem_stepL hn).1 ha with h | h
        · exact hq a h.1
        · exact absurd h haz
    by_cases hz : p z
    · have hx := e1.2 hz
      have hy := e2.2 hz
      rw [show ((x, y, z) :: c).filter (fun t => p t.1) = (x, y, z) :: c.filter fun t => p t.1 by simp [hx]]
      simp only [prods]
      rw [List.filter_cons_of_pos (by simpa using hzq.2 hz), hτ _ hx, hτ _ hy]
      congr 1
      refine ih hp' (nodup_stepL hn h4) h5 (fun b hb => ?_) hqs
      by_cases hbz : b = z
      · subst hbz; simp
      · rw [Function.update_of_ne hbz, Function.update_of_ne hbz]; exact hτ b hb
    · have hx : ¬ p x := fun h => hz (e1.1 h)
      rw [show ((x, y, z) :: c).filter (fun t => p t.1) = c.filter fun t => p t.1 by simp [hx]]
      simp only [prods]
      rw [List.filter_cons_of_neg (by rw [decide_eq_true_eq]; exact fun h => hz (hzq.1 h))]
      refine ih hp' (nodup_stepL hn h4) h5 (fun b hb => ?_) hqs
      rw [Function.update_of_ne (by rintro rfl; exact hz hb)]; exact hτ b hb

end

/-- The labels below a label. -/
def descs (D : ℕ → Finset ℕ) : List (ℕ × ℕ × ℕ) → ℕ → Finset ℕ
  | [] => D
  | (x, y, z) :: c => descs (Function.update D z (D x ∪ D y ∪ {z})) c

/-- Disjoint sets of labels, one for each current tensor. -/
structure DInv (L : List ℕ) (D : ℕ → Finset ℕ) (c : List (ℕ × ℕ × ℕ)) : Prop where
  self : ∀ a ∈ L, a ∈ D a
  disj : ∀ a ∈ L, ∀ b ∈ L, ∀ t, t ∈ D a → t ∈ D b → a = b
  fresh : ∀ a ∈ L, ∀ z ∈ made c, z ∉ D a
  nodup : (made c).Nodup

theorem DInv.step {L : List ℕ} {D : ℕ → Finset ℕ} {x y z : ℕ} {c} (hn : L.Nodup)
    (hx : x ∈ L) (hy : y ∈ L) (hz : z ∉ L) (h : DInv L D ((x, y, z) :: c)) :
    DInv (stepL L x y z) (Function.update D z (D x ∪ D y ∪ {z})) c := by
  have hzf : ∀ a ∈ L, z ∉ D a := fun a ha => h.fresh a ha z (by simp [made])
  have hnd := h.nodup
  simp only [made, List.map_cons, List.nodup_cons] at hnd
  refine ⟨?_, ?_, ?_, hnd.2⟩
  · intro a ha
    by_cases haz : a = z
    · subst haz; simp
    · rw [Function.update_of_ne haz]
      rcases (mem_stepL hn).1 ha with h' | h'
      · exact h.self a h'.1
      · exact absurd h' haz
  · have key : ∀ a, (a ∈ L ∧ a ≠ x ∧ a ≠ y) → ∀ t, t ∈ D a → t ∈ D x ∪ D y ∪ {z} → False := by
      intro a ha t h1 h2
      simp only [Finset.mem_union, Finset.mem_singleton] at h2
      rcases h2 with (h2 | h2) | h2
      · exact ha.2.1 (h.disj a ha.1 x hx t h1 h2)
      · exact ha.2.2 (h.disj a ha.1 y hy t h1 h2)
      · subst h2; exact hzf a ha.1 h1
    intro a ha b hb t h1 h2
    by_cases haz : a = z <;> by_cases hbz : b = z
    · rw [haz, hbz]
    · rw [haz, Function.update_self] at h1
      rw [Function.update_of_ne hbz] at h2
      exact (key b (((mem_stepL hn).1 hb).resolve_right hbz) t h2 h1).elim
    · rw [hbz, Function.update_self] at h2
      rw [Function.update_of_ne haz] at h1
      exact (key a (((mem_stepL hn).1 ha).resolve_right haz) t h1 h2).elim
    · rw [Function.update_of_ne haz] at h1
      rw [Function.update_of_ne hbz] at h2
      exact h.disj a (((mem_stepL hn).1 ha).resolve_right haz).1 b (((mem_stepL hn).1 hb).resolve_right hbz).1 t h1 h2
  · intro a ha w hw hm
    have hw' : w ∈ made ((x, y, z) :: c) := by simp only [made, List.map_cons, List.mem_cons]; exact Or.inr hw
    by_cases haz : a = z
    · subst haz
      simp only [Function.update_self, Finset.mem_union, Finset.mem_singleton] at hm
      rcases hm with (hm | hm) | hm
      · exact h.fresh x hx w hw' hm
      · exact h.fresh y hy w hw' hm
      · subst hm; exact hnd.1 hw
    · rw [Function.update_of_ne haz] at hm
      exact h.fresh a (((mem_stepL hn).1 ha).resolve_right haz).1 w hw' hm

theorem DInv.final {L : List ℕ} {D : ℕ → Finset ℕ} {c} (hn : L.Nodup) (hk : Ok L c) (h : DInv L D c) :
    DInv (final L c) (descs D c) [] ∧
    ∀ r ∈ final L c, (∀ a ∈ L, D a ⊆ descs D c r ∨ Disjoint (D a) (descs D c r)) ∧
      Closed (· ∈ descs D c r) c := by
  induction c generalizing L D with
  | nil =>
    refine ⟨h, fun r hr => ⟨fun a ha => ?_, fun t ht => by cases ht⟩⟩
    simp only [descs]
    by_cases har : a = r
    · subst har; exact Or.inl (Finset.Subset.refl _)
    · right
      rw [Finset.disjoint_left]
      intro t h1 h2
      exact har (h.disj a ha r hr t h1 h2)
  | cons t c ih =>
    obtain ⟨x, y, z⟩ := t
    obtain ⟨h1, h2, h3, h4, h5⟩ := hk
    obtain ⟨i1, i2⟩ := ih (nodup_stepL hn h4) h5 (h.step hn h1 h2 h4)
    refine ⟨i1, fun r hr => ?_⟩
    obtain ⟨j1, j2⟩ := i2 r hr
    have hz := j1 z ((mem_stepL hn).2 (Or.inr rfl))
    rw [Function.update_self] at hz
    have sx : D x ⊆ D x ∪ D y ∪ {z} := fun t ht => by simp [ht]
    have sy : D y ⊆ D x ∪ D y ∪ {z} := fun t ht => by simp [ht]
    constructor
    · intro a ha
      by_cases hax : a = x
      · subst hax
        exact hz.imp (fun h => sx.trans h) (fun h => Finset.disjoint_of_subset_left sx h)
      by_cases hay : a = y
      · subst hay
        exact hz.imp (fun h => sy.trans h) (fun h => Finset.disjoint_of_subset_left sy h)
      have := j1 a ((mem_stepL hn).2 (Or.inl ⟨ha, hax, hay⟩))
      rwa [Function.update_of_ne (by rintro rfl; exact h4 ha)] at this
    · intro t ht
      rcases List.mem_cons.1 ht with rfl | ht
      · simp only [descs]
        have mx := sx (h.self x h1)
        have my := sy (h.self y h2)
        have mz : z ∈ D x ∪ D y ∪ {z} := by simp
        rcases hz with hz | hz
        · exact ⟨iff_of_true (hz mx) (hz mz), iff_of_true (hz my) (hz mz)⟩
        · rw [Finset.disjoint_left] at hz
          exact ⟨iff_of_false (hz mx) (hz mz), iff_of_false (hz my) (hz mz)⟩
      · exact j2 t ht

theorem dictPop_spec {d : List (ℕ × Finset ℕ)} (hn : (d.map Prod.fst).Nodup) {k : ℕ} {v : Finset ℕ} (h : (k, v) ∈ d) :
    ∃ d', dictPop d k = some (v, d') ∧ d.Perm ((k, v) :: d') := by
  induction d with
  | nil => cases h
  | cons e d ih =>
    obtain ⟨k', v'⟩ := e
    simp only [List.map_cons, List.nodup_cons] at hn
    by_cases hk : k' = k
    · subst hk
      have hv : v' = v := by
        rcases List.mem_cons.1 h with h | h
        · injection h with _ h; exact h.symm
        · exact absurd (List.mem_map_of_mem h) hn.1
      subst hv
      refine ⟨d, ?_, List.Perm.refl _⟩
      have : d.filter (fun e => e.1 != k') = d := by
        rw [List.filter_eq_self]
        intro e he
        have : e.1 ≠ k' := fun hc => hn.1 (hc ▸ List.mem_map_of_mem he)
        simpa using this
      simp [dictPop, this]
    · have h' : (k, v) ∈ d := by
        rcases List.mem_cons.1 h with h | h
        · injection h with h _; exact absurd h.symm hk
        · exact h
      obtain ⟨d', h1, h2⟩ := ih hn.2 h'
      refine ⟨(k', v') :: d', ?_, (h2.cons _).trans (List.Perm.swap _ _ _)⟩
      unfold dictPop at h1 ⊢
      rw [List.find?_cons_of_neg (by simpa using hk), List.filter_cons_of_pos (by simpa using hk)]
      cases hf : d.find? (fun x => x.1 == k) with
      | none => rw [hf] at h1; cases h1
      | some e =>
        rw [hf] at h1
        simp only [Option.some.injEq, Prod.mk.injEq] at h1 ⊢
        exact ⟨h1.1, by rw [h1.2]⟩

theorem dictSet_new {d : List (ℕ × Finset ℕ)} {k : ℕ} {v : Finset ℕ} (h : k ∉ d.map Prod.fst) :
    dictSet d k v = d ++ [(k, v)] := by
  unfold dictSet
  rw [if_neg]
  intro hc
  rw [List.any_eq_true] at hc
  obtain ⟨e, he, hk⟩ := hc
  exact h (by simp only [beq_iff_eq] at hk; exact hk ▸ List.mem_map_of_mem he)

theorem perm_cons_map_erase {β : Type} {L : List ℕ} {a : ℕ} (h : a ∈ L) (f : ℕ → β) :
    (L.map f).Perm (f a :: (L.erase a).map f) := by
  rw [← List.map_cons]; exact (List.perm_cons_erase h).map f

/-- The first loop computes the sets of labels of the final tensors. -/
theorem colorLoop_spec (n : ℕ) (path : List (ℕ × ℕ)) (m : ℕ) (s : Colors) (col : ℕ → ℕ) (D : ℕ → Finset ℕ)
    (c : List (ℕ × ℕ × ℕ)) (hxy : ∀ p ∈ path, p.1 ≠ p.2)
    (hc : triples (fun j => n + 1 + j) m s.tensors path = some c) (hk : Ok s.tensors c) (hn : s.tensors.Nodup)
    (hD : DInv s.tensors D c) (hp : s.color2tensors.Perm (s.tensors.map fun a => (col a, D a)))
    (hcol : (s.tensors.map col).Nodup) (ht : ∀ a ∈ s.tensors, ∀ t ∈ D a, s.tensor2color t = some (col a)) :
    ∃ s', colorLoop (n + m) s path = .ok s' ∧
      (s'.color2tensors.map Prod.snd).Perm ((final s.tensors c).map (descs D c)) := by
  induction path generalizing m s col D c with
  | nil =>
    simp only [triples, Option.some.injEq] at hc
    subst hc
    refine ⟨s, rfl, ?_⟩
    have := hp.map Prod.snd
    rwa [List.map_map] at this
  | cons q path ih =>
    obtain ⟨x, y⟩ := q
    have hne : x ≠ y := hxy (x, y) (by simp)
    unfold triples at hc
    cases hpp : popPair s.tensors x y with
    | none => rw [hpp] at hc; cases hc
    | some r =>
      obtain ⟨a, b, rest⟩ := r
      rw [hpp] at hc
      simp only at hc
      obtain ⟨ha, hb, hab, hrest, -, -⟩ := popPair_nodup hn hne hpp
      cases hc' : triples (fun j => n + 1 + j) (m + 1) (rest ++ [n + 1 + m]) path with
      | none => rw [hc'] at hc; cases hc
      | some c' =>
        rw [hc'] at hc
        simp only [Option.map_some, Option.some.injEq] at hc
        subst hc
        obtain ⟨h1, h2, h3, h4, h5⟩ := hk
        have em : n + m + 1 = n + 1 + m := by omega
        have hst : rest ++ [n + 1 + m] = stepL s.tensors a b (n + 1 + m) := by rw [hrest]; rfl
        have ca := ht a ha a (hD.self a ha)
        have cb := ht b hb b (hD.self b hb)
        have hkeys : (s.color2tensors.map Prod.fst).Nodup := by
          have := hp.map Prod.fst
          rw [List.map_map] at this
          exact this.nodup_iff.2 hcol
        have hma : (col a, D a) ∈ s.color2tensors := hp.mem_iff.2 (List.mem_map.2 ⟨a, ha, rfl⟩)
        obtain ⟨d1, p1, q1⟩ := dictPop_spec hkeys hma
        have r1 : d1.Perm ((s.tensors.erase a).map fun a => (col a, D a)) :=
          (List.perm_cons _).1 (q1.symm.trans (hp.trans (perm_cons_map_erase ha fun a => (col a, D a))))
        have hbe : b ∈ s.tensors.erase a := (List.mem_erase_of_ne hab.symm).2 hb
        have hmb : (col b, D b) ∈ d1 := r1.mem_iff.2 (List.mem_map.2 ⟨b, hbe, rfl⟩)
        have hkeys1 : (d1.map Prod.fst).Nodup := by
          have := (q1.map Prod.fst).nodup_iff.1 hkeys
          exact (List.nodup_cons.1 this).2
        obtain ⟨d2, p2, q2⟩ := dictPop_spec hkeys1 hmb
        have r2 : d2.Perm (((s.tensors.erase a).erase b).map fun a => (col a, D a)) :=
          (List.perm_cons _).1 (q2.symm.trans (r1.trans (perm_cons_map_erase hbe fun a => (col a, D a))))
        have hcinj : ∀ u ∈ s.tensors, ∀ v ∈ s.tensors, col u = col v → u = v := by
          intro u hu v hv e; exact List.inj_on_of_nodup_map hcol hu hv e
        have hmr : ∀ u, u ∈ (s.tensors.erase a).erase b ↔ u ∈ s.tensors ∧ u ≠ a ∧ u ≠ b := by
          intro u
          rw [(hn.erase a).mem_erase_iff, hn.mem_erase_iff]; tauto
        have hmin : min (col a) (col b) = col a ∨ min (col a) (col b) = col b := by omega
        have hnew : ∀ u ∈ (s.tensors.erase a).erase b, col u ≠ min (col a) (col b) := by
          intro u hu e
          obtain ⟨hu, hua, hub⟩ := (hmr u).1 hu
          rcases hmin with h | h
          · exact hua (hcinj u hu a ha (e.trans h))
          · exact hub (hcinj u hu b hb (e.trans h))
        have hnew' : min (col a) (col b) ∉ d2.map Prod.fst := by
          intro hm
          have := (r2.map Prod.fst).mem_iff.1 hm
          rw [List.map_map] at this
          obtain ⟨u, hu, e⟩ := List.mem_map.1 this
          exact hnew u hu e
        have hzr : ∀ u ∈ (s.tensors.erase a).erase b, u ≠ n + 1 + m := by
          rintro u hu rfl; exact h4 ((hmr _).1 hu).1
        have emap : ∀ {β : Type} (f g : ℕ → β), (∀ u ∈ (s.tensors.erase a).erase b, f u = g u) →
            (stepL s.tensors a b (n + 1 + m)).map f = ((s.tensors.erase a).erase b).map g ++ [f (n + 1 + m)] := by
          intro β f g hfg
          unfold stepL
          rw [List.map_append, List.map_singleton]
          congr 1
          exact List.map_congr_left hfg
        obtain ⟨s', g1, g2⟩ := ih (m + 1)
          ⟨rest ++ [n + m + 1], fun t => if t ∈ D a ∪ D b ∪ {n + m + 1} then some (min (col a) (col b))
            else s.tensor2color t, dictSet d2 (min (col a) (col b)) (D a ∪ D b ∪ {n + m + 1})⟩
          (Function.update col (n + 1 + m) (min (col a) (col b)))
          (Function.update D (n + 1 + m) (D a ∪ D b ∪ {n + 1 + m})) c' (fun p hp => hxy p (by simp [hp]))
          (by simp only [em]; exact hc') (by simp only [em, hst]; exact h5) (by simp only [em, hst]; exact nodup_stepL hn h4)
          (by simp only [em, hst]; exact hD.step hn ha hb h4)
          (by
            simp only [em, hst]
            rw [dictSet_new hnew', emap _ (fun a => (col a, D a)) fun u hu => by
              rw [Function.update_of_ne (hzr u hu), Function.update_of_ne (hzr u hu)]]
            rw [Function.update_self, Function.update_self]
            exact r2.append_right _)
          (by
            simp only [em, hst]
            rw [emap _ col fun u hu => Function.update_of_ne (hzr u hu) _ _, Function.update_self]
            rw [List.nodup_append]
            refine ⟨((((List.erase_sublist).trans (List.erase_sublist)).map col).nodup hcol), List.nodup_singleton _, ?_⟩
            intro u hu v hv
            rw [List.mem_singleton] at hv
            subst hv
            obtain ⟨w, hw, rfl⟩ := List.mem_map.1 hu
            exact hnew w hw)
          (by
            simp only [em, hst]
            intro u hu t htu
            by_cases huz : u = n + 1 + m
            · subst huz
              rw [Function.update_self] at htu ⊢
              rw [if_pos htu]
            · rw [Function.update_of_ne huz] at htu ⊢
              have hu' := ((mem_stepL hn).1 hu).resolve_right huz
              rw [if_neg]
              · exact ht u hu'.1 t htu
              · intro hm
                simp only [Finset.mem_union, Finset.mem_singleton] at hm
                rcases hm with (hm | hm) | hm
                · exact hu'.2.1 (hD.disj u hu'.1 a ha t htu hm)
                · exact hu'.2.2 (hD.disj u hu'.1 b hb t htu hm)
                · subst hm; exact hD.fresh u hu'.1 _ (by simp [made]) htu)
        refine ⟨s', ?_, ?_⟩
        · simp only [colorLoop, hpp, ca, cb, p1, p2]
          exact g1
        · simp only [em, hst] at g2
          exact g2

/-- What the code keeps for a component: the current tensors, in the normalised case followed by
the labels still to be made and by stale labels. -/
def Tracks (l T : List ℕ) (c : List (ℕ × ℕ × ℕ)) : Prop := l = T ∨ ∃ J, l = T ++ made c ++ J

theorem idxOf_append_left {T J : List ℕ} {x : ℕ} (h : x ∈ T) : (T ++ J).idxOf x = T.idxOf x :=
  List.idxOf_append_of_mem h

theorem Tracks.idxOf {l T : List ℕ} {c} (h : Tracks l T c) {x : ℕ} (hx : x ∈ T) : l.idxOf x = T.idxOf x ∧ x ∈ l := by
  rcases h with rfl | ⟨J, rfl⟩
  · exact ⟨rfl, hx⟩
  · rw [List.append_assoc, idxOf_append_left hx]
    exact ⟨rfl, by simp [hx]⟩

theorem eraseIdx_pair_append {T J : List ℕ} {i j : ℕ} (hi : i < T.length) (hj : j < T.length) (hij : i ≠ j) :
    ((T ++ J).eraseIdx (max i j)).eraseIdx (min i j) = (T.eraseIdx (max i j)).eraseIdx (min i j) ++ J := by
  rw [List.eraseIdx_append_of_lt_length (by omega), List.eraseIdx_append_of_lt_length]
  rw [List.length_eraseIdx_of_lt (by omega)]; omega

theorem Tracks.step {l T : List ℕ} {x y z : ℕ} {c} (hT : T.Nodup) (h : Tracks l T ((x, y, z) :: c))
    (hx : x ∈ T) (hy : y ∈ T) (hxy : x ≠ y) :
    Tracks ((l.eraseIdx (max (l.idxOf x) (l.idxOf y))).eraseIdx (min (l.idxOf x) (l.idxOf y)) ++ [z])
      (stepL T x y z) c := by
  rw [(h.idxOf hx).1, (h.idxOf hy).1]
  have hi := List.idxOf_lt_length_of_mem hx
  have hj := List.idxOf_lt_length_of_mem hy
  rcases h with rfl | ⟨J, rfl⟩
  · left; rw [eraseIdx_pair hT hx hy hxy]; rfl
  · right
    refine ⟨J ++ [z], ?_⟩
    rw [List.append_assoc, eraseIdx_pair_append hi hj (idxOf_ne hx hy hxy), eraseIdx_pair hT hx hy hxy]
    simp [stepL, made]

theorem getD_set_self {β : Type} {l : List β} {k : ℕ} (h : k < l.length) (v d : β) : (l.set k v).getD k d = v := by
  rw [List.getD_eq_getElem?_getD, List.getElem?_set_self h]; rfl

theorem getD_set_ne {β : Type} (l : List β) {k k' : ℕ} (h : k' ≠ k) (v d : β) : (l.set k v).getD k' d = l.getD k' d := by
  rw [List.getD_eq_getElem?_getD, List.getElem?_set_ne (Ne.symm h), ← List.getD_eq_getElem?_getD]

/-- The contractions of one component. -/
def part (s : Finset ℕ) (c : List (ℕ × ℕ × ℕ)) : List (ℕ × ℕ × ℕ) := c.filter fun t => t.1 ∈ s

theorem part_cons (s : Finset ℕ) (x y z : ℕ) (c) :
    part s ((x, y, z) :: c) = if x ∈ s then (x, y, z) :: part s c else part s c := by
  unfold part
  rw [List.filter_cons]; simp

theorem splitLoop_spec (n : ℕ) (cc : List (Finset ℕ)) (path : List (ℕ × ℕ)) (m : ℕ) (L : List ℕ)
    (lists : List (List ℕ)) (paths : List (List (ℕ × ℕ))) (T : ℕ → List ℕ) (c : List (ℕ × ℕ × ℕ))
    (hxy : ∀ p ∈ path, p.1 ≠ p.2) (hc : triples (fun j => n + 1 + j) m L path = some c) (hk : Ok L c) (hn : L.Nodup)
    (hd : ∀ i j, i < cc.length → j < cc.length → ∀ t, t ∈ cc.getD i ∅ → t ∈ cc.getD j ∅ → i = j)
    (hcov : ∀ a ∈ L, ∃ k, k < cc.length ∧ a ∈ cc.getD k ∅)
    (hcl : ∀ k, k < cc.length → Closed (· ∈ cc.getD k ∅) c)
    (hll : lists.length = cc.length) (hpl : paths.length = cc.length)
    (hT : ∀ k, k < cc.length → (T k).Nodup ∧ Ok (T k) (part (cc.getD k ∅) c) ∧
      Tracks (lists.getD k []) (T k) (part (cc.getD k ∅) c)) :
    ∃ paths', splitLoop cc (n + m) L lists paths path = .ok paths' ∧ paths'.length = cc.length ∧
      ∀ k, k < cc.length → paths'.getD k [] = paths.getD k [] ++ lin (T k) (part (cc.getD k ∅) c) := by
  induction path generalizing m L lists paths T c with
  | nil =>
    simp only [triples, Option.some.injEq] at hc
    subst hc
    exact ⟨paths, rfl, hpl, fun k _ => by simp [part, lin]⟩
  | cons q path ih =>
    obtain ⟨x, y⟩ := q
    have hne : x ≠ y := hxy (x, y) (by simp)
    unfold triples at hc
    cases hpp : popPair L x y with
    | none => rw [hpp] at hc; cases hc
    | some r =>
      obtain ⟨a, b, rest⟩ := r
      rw [hpp] at hc
      simp only at hc
      obtain ⟨ha, hb, hab, hrest, ia, ib⟩ := popPair_nodup hn hne hpp
      cases hc' : triples (fun j => n + 1 + j) (m + 1) (rest ++ [n + 1 + m]) path with
      | none => rw [hc'] at hc; cases hc
      | some c' =>
        rw [hc'] at hc
        simp only [Option.map_some, Option.some.injEq] at hc
        subst hc
        obtain ⟨h1, h2, h3, h4, h5⟩ := hk
        have em : n + m + 1 = n + 1 + m := by omega
        have hst : rest ++ [n + 1 + m] = stepL L a b (n + 1 + m) := by rw [hrest]; rfl
        have ga : L[min x y]? = some a := by
          rw [← ia, List.getElem?_eq_getElem (List.idxOf_lt_length_of_mem ha), List.getElem_idxOf]
        have gb : L[max x y]? = some b := by
          rw [← ib, List.getElem?_eq_getElem (List.idxOf_lt_length_of_mem hb), List.getElem_idxOf]
        obtain ⟨k, hkl, hak⟩ := hcov a ha
        have hfind : cc.findIdx? (fun s => decide (a ∈ s)) = some k := by
          cases hf : cc.findIdx? (fun s => decide (a ∈ s)) with
          | none =>
            rw [List.findIdx?_eq_none_iff] at hf
            rw [List.getD_eq_getElem _ _ hkl] at hak
            have := hf _ (List.getElem_mem hkl)
            simp [hak] at this
          | some k' =>
            obtain ⟨hk', h', -⟩ := List.findIdx?_eq_some_iff_getElem.1 hf
            rw [decide_eq_true_eq] at h'
            rw [hd k' k hk' hkl a (by rw [List.getD_eq_getElem _ _ hk']; exact h') hak]
        have hcl' : ∀ k, k < cc.length → Closed (· ∈ cc.getD k ∅) c' := fun k hk t ht => hcl k hk t (by simp [ht])
        obtain ⟨e1, e2⟩ := hcl k hkl (a, b, n + 1 + m) (by simp)
        simp only at e1 e2
        have hzk := e1.1 hak
        have hbk := e2.2 hzk
        obtain ⟨t1, t2, t3⟩ := hT k hkl
        rw [part_cons, if_pos hak] at t2 t3
        obtain ⟨u1, u2, u3, u4, u5⟩ := t2
        have hst3 := t3.step t1 u1 u2 u3
        obtain ⟨paths', g1, g2, g3⟩ := ih (m + 1) (rest ++ [n + m + 1])
          (lists.set k ((((lists.getD k []).eraseIdx (max ((lists.getD k []).idxOf a) ((lists.getD k []).idxOf b))).eraseIdx
            (min ((lists.getD k []).idxOf a) ((lists.getD k []).idxOf b))) ++ [n + m + 1]))
          (paths.set k (paths.getD k [] ++ [(min ((lists.getD k []).idxOf a) ((lists.getD k []).idxOf b),
            max ((lists.getD k []).idxOf a) ((lists.getD k []).idxOf b))]))
          (Function.update T k (stepL (T k) a b (n + 1 + m))) c' (fun p hp => hxy p (by simp [hp]))
          (by simp only [em]; exact hc') (by simp only [em, hst]; exact h5) (by simp only [em, hst]; exact nodup_stepL hn h4)
          (by
            simp only [em, hst]
            intro u hu
            rcases (mem_stepL hn).1 hu with h | h
            · exact hcov u h.1
            · exact ⟨k, hkl, h ▸ hzk⟩)
          hcl' (by simp [hll]) (by simp [hpl])
          (by
            simp only [em]
            intro k' hk'
            by_cases hkk : k' = k
            · subst hkk
              rw [Function.update_self, getD_set_self (by omega)]
              exact ⟨nodup_stepL t1 u4, u5, hst3⟩
            · rw [Function.update_of_ne hkk, getD_set_ne _ hkk]
              have := hT k' hk'
              rwa [part_cons, if_neg (fun h => hkk (hd k' k hk' hkl a h hak))] at this)
        refine ⟨paths', ?_, g2, ?_⟩
        · simp only [splitLoop, ga, gb, hfind, popPair_comm, hpp]
          rw [if_neg (not_not.2 hbk), if_neg (not_not.2 ⟨(t3.idxOf u1).2, (t3.idxOf u2).2⟩)]
          have hp := popPair_of_lt (F := lists.getD k []) (List.idxOf_lt_length_of_mem (t3.idxOf u1).2)
            (List.idxOf_lt_length_of_mem (t3.idxOf u2).2) (idxOf_ne (t3.idxOf u1).2 (t3.idxOf u2).2 u3)
          simp only [popPair_comm, hp]
          exact g1
        · intro k' hk'
          rw [g3 k' hk']
          by_cases hkk : k' = k
          · subst hkk
            rw [Function.update_self, getD_set_self (by omega), part_cons, if_pos hak,
              (t3.idxOf u1).1, (t3.idxOf u2).1]
            simp [lin]
          · rw [Function.update_of_ne hkk, getD_set_ne _ hkk, part_cons, if_neg (fun h => hkk (hd k' k hk' hkl a h hak))]

end Linear
end TNCO
