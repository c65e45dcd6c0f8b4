import Verif.Lemmas.AnnealFw
import Verif.Props.Components

/-! Connected networks: the merged path has nothing to add. -/

namespace TNCO
variable {ι : Type} [DecidableEq ι]

theorem trace_length {path : List (ℕ × ℕ)} {ts F : List Term} (h : replay ts path = some F) : (trace ts path).length = path.length := by
  induction path generalizing ts with
  | nil => rfl
  | cons s path ih =>
    obtain ⟨x, y⟩ := s
    obtain ⟨c, d, rest, hp, hr, ht⟩ := replay_step h
    rw [ht, List.length_cons, List.length_cons, ih hr]

theorem trace_pair {path : List (ℕ × ℕ)} {ts F : List Term} (h : replay ts path = some F) {t : Term} (ht : t ∈ trace ts path) :
    ∃ a b, t = .pair a b := by
  induction path generalizing ts with
  | nil => cases ht
  | cons s path ih =>
    obtain ⟨x, y⟩ := s
    obtain ⟨c, d, rest, hp, hr, ht'⟩ := replay_step h
    rw [ht', List.mem_cons] at ht
    rcases ht with rfl | ht
    · exact ⟨_, _, rfl⟩
    · exact ih hr ht

theorem trace_ne_nil {n : ℕ} {p : List (ℕ × ℕ)} {F : List Term} (hF : replay (initTerms n) p = some F) (hne : p ≠ []) :
    ∃ a b, Term.pair a b ∈ trace (initTerms n) p := by
  obtain ⟨⟨x, y⟩, p', rfl⟩ := List.exists_cons_of_ne_nil hne
  obtain ⟨c, d, _, -, -, htr⟩ := replay_step hF
  exact ⟨c, d, by rw [htr]; exact List.mem_cons_self⟩

theorem touches_lt {n : ℕ} {p : List (ℕ × ℕ)} {F : List Term} (hF : replay (initTerms n) p = some F) {k : ℕ} (hk : Touches n p k) : k < n := by
  obtain ⟨t, ht, hk⟩ := hk
  obtain ⟨v, hv, hsub⟩ := trace_sub hF (Or.inr ht)
  have := (replay_tensors_init hF).mem_iff.1 (List.mem_flatMap.2 ⟨v, hv, hsub.tensors hk⟩)
  simpa using this

theorem touches_some {n : ℕ} {p : List (ℕ × ℕ)} {F : List Term} (hF : replay (initTerms n) p = some F) (hne : p ≠ []) :
    ∃ k < n, Touches n p k := by
  obtain ⟨a, b, hab⟩ := trace_ne_nil hF hne
  obtain ⟨k, hk⟩ := tensors_nonempty (.pair a b)
  exact ⟨k, touches_lt hF ⟨_, hab, hk⟩, _, hab, hk⟩

/-- A path that touches everything and leaves one contracted tensor is complete. -/
theorem touches_all {n : ℕ} {q : List (ℕ × ℕ)} {F : List Term} (hF : replay (initTerms n) q = some F) (h1 : (F.filter Term.isPair).length ≤ 1)
    (hall : ∀ k < n, Touches n q k) : F.length ≤ 1 := by
  rw [List.filter_eq_self.2] at h1
  · exact h1
  intro u hu
  cases u with
  | pair a b => rfl
  | tensor k =>
    exfalso
    have hk : k < n := by
      have := (replay_tensors_init hF).mem_iff.1 (List.mem_flatMap.2 ⟨_, hu, by simp [Term.tensors]⟩ : k ∈ F.flatMap Term.tensors)
      simpa using this
    obtain ⟨t, ht, hkt⟩ := hall k hk
    obtain ⟨v, hv, hs⟩ := trace_sub hF (Or.inr ht)
    obtain ⟨a, b, rfl⟩ := trace_pair hF ht
    have e := replay_disjoint hF hu hv (k := k) (by simp [Term.tensors]) (hs.tensors hkt)
    have := hs.isPair rfl
    rw [← e] at this
    simp [Term.isPair] at this

/-- All tensors are connected through shared indices. -/
def AllConnected (tsInds : List (List ι)) : Prop := ∀ i < tsInds.length, ∀ j < tsInds.length, ConnectedPos tsInds i j

theorem adjacent_iff {tsInds : List (List ι)} {i j : ℕ} : Adjacent tsInds i j ↔ ∃ x, Holds tsInds i x ∧ Holds tsInds j x := by
  unfold Adjacent Holds
  have key : ∀ k x, x ∈ tsInds.getD k [] ↔ ∃ s, tsInds[k]? = some s ∧ x ∈ s := by
    intro k x
    rw [List.getD_eq_getElem?_getD]
    cases tsInds[k]? <;> simp
  constructor
  · rintro ⟨s, t, x, h1, h2, h3, h4⟩
    exact ⟨x, (key i x).2 ⟨s, h1, h3⟩, (key j x).2 ⟨t, h2, h4⟩⟩
  · rintro ⟨x, h1, h2⟩
    obtain ⟨s, h1, h3⟩ := (key i x).1 h1
    obtain ⟨t, h2, h4⟩ := (key j x).1 h2
    exact ⟨s, t, x, h1, h2, h3, h4⟩

theorem connected_one {tsInds : List (List ι)} {ps : List (List (ℕ × ℕ))} (hP : PartPaths tsInds ps) (hc : AllConnected tsInds) (hn : 2 ≤ tsInds.length) :
    ∃ p ∈ ps, ∀ k < tsInds.length, Touches tsInds.length p k := by
  have key : ∀ j, ConnectedPos tsInds 0 j → j = 0 ∨ ∃ p ∈ ps, Touches tsInds.length p 0 ∧ Touches tsInds.length p j := by
    intro j h
    induction h with
    | refl => exact Or.inl rfl
    | @tail k l _ hkl ih =>
      by_cases hkl' : k = l
      · exact hkl' ▸ ih
      obtain ⟨x, h1, h2⟩ := adjacent_iff.1 hkl
      obtain ⟨p', hp', t, ht, hkt, hlt⟩ := hP.together k l x hkl' h1 h2
      rcases ih with rfl | ⟨p, hp, h0, hk⟩
      · exact Or.inr ⟨p', hp', ⟨t, ht, hkt⟩, ⟨t, ht, hlt⟩⟩
      · have := disconnected_eq hP.disc hp hp' hk ⟨t, ht, hkt⟩
        subst this
        exact Or.inr ⟨p, hp, h0, ⟨t, ht, hlt⟩⟩
  obtain ⟨p, hp, h0, -⟩ := (key 1 (hc 0 (by omega) 1 (by omega))).resolve_left (by omega)
  refine ⟨p, hp, fun k hk => ?_⟩
  rcases key k (hc 0 (by omega) k hk) with rfl | ⟨p', hp', h0', hk'⟩
  · exact h0
  · have := disconnected_eq hP.disc hp hp' h0 h0'
    subst this
    exact hk'

theorem touch_conn {tsInds : List (List ι)} {ps : List (List (ℕ × ℕ))} (hP : PartPaths tsInds ps) {p : List (ℕ × ℕ)} (hp : p ∈ ps)
    {i j : ℕ} (hi : Touches tsInds.length p i) (hj : Touches tsInds.length p j) : ConnectedPos tsInds i j := by
  have hne : p ≠ [] := by rintro rfl; exact touches_nil hi
  obtain ⟨F, u, hF, hu⟩ := hP.single p hp hne
  have hin : ∀ k, Touches tsInds.length p k → k ∈ u.tensors := by
    rintro k ⟨t, ht, hkt⟩
    obtain ⟨v, hv, hs⟩ := trace_sub hF (Or.inr ht)
    obtain ⟨a, b, rfl⟩ := trace_pair hF ht
    have : v ∈ F.filter Term.isPair := List.mem_filter.2 ⟨hv, hs.isPair rfl⟩
    rw [hu, List.mem_singleton] at this
    exact this ▸ hs.tensors hkt
  have huF : u ∈ F := (List.mem_filter.1 (by rw [hu]; simp : u ∈ F.filter Term.isPair)).1
  have symm : ∀ {a b}, ConnectedPos tsInds a b → ConnectedPos tsInds b a := by
    intro a b h
    induction h with
    | refl => exact .refl
    | tail _ h ih =>
      obtain ⟨x, h1, h2⟩ := adjacent_iff.1 h
      exact .head (adjacent_iff.2 ⟨x, h2, h1⟩) ih
  have key : ∀ s : Term, Term.Sub s u → ∀ a ∈ s.tensors, ∀ b ∈ s.tensors, ConnectedPos tsInds a b := by
    intro s
    induction s with
    | tensor k =>
      intro _ a ha b hb
      simp only [Term.tensors, List.mem_singleton] at ha hb
      subst ha; subst hb; exact .refl
    | pair c d ihc ihd =>
      intro hs a ha b hb
      obtain ⟨c', d', e, x, ⟨i, hi, hix⟩, j, hj, hjx⟩ := hP.share p hp _ (replay_sub_init hF huF hs)
      cases e
      have h1 := ihc (Term.Sub.trans (.left .refl) hs)
      have h2 := ihd (Term.Sub.trans (.right .refl) hs)
      have hij : ConnectedPos tsInds i j := .single (adjacent_iff.2 ⟨x, hix, hjx⟩)
      simp only [Term.tensors, List.mem_append] at ha hb
      rcases ha with ha | ha <;> rcases hb with hb | hb
      · exact h1 a ha b hb
      · exact (h1 a ha i hi).trans (hij.trans (h2 j hj b hb))
      · exact (h2 a ha j hj).trans ((symm hij).trans (h1 i hi b hb))
      · exact h2 a ha b hb
  exact key u .refl i (hin i hi) j (hin j hj)

theorem connected_of_path {tsInds : List (List ι)} {ps : List (List (ℕ × ℕ))} (hP : PartPaths tsInds ps) {p : List (ℕ × ℕ)} (hp : p ∈ ps)
    (hall : ∀ k < tsInds.length, Touches tsInds.length p k) : AllConnected tsInds :=
  fun i hi j hj => touch_conn hP hp (hall i hi) (hall j hj)

/-- A path touches all that is connected to a tensor it touches. -/
theorem conn_touch {tsInds : List (List ι)} {ps : List (List (ℕ × ℕ))} (hP : PartPaths tsInds ps) {p : List (ℕ × ℕ)} (hp : p ∈ ps)
    {i j : ℕ} (hi : Touches tsInds.length p i) (h : ConnectedPos tsInds i j) : Touches tsInds.length p j := by
  induction h with
  | refl => exact hi
  | @tail k l _ hkl ih =>
    by_cases hkl' : k = l
    · exact hkl' ▸ ih
    obtain ⟨x, h1, h2⟩ := adjacent_iff.1 hkl
    obtain ⟨p', hp', t, ht, hkt, hlt⟩ := hP.together k l x hkl' h1 h2
    have := disconnected_eq hP.disc hp hp' ih ⟨t, ht, hkt⟩
    subst this
    exact ⟨t, ht, hlt⟩

/-- The sparse indices are in every connected part that has more than one tensor. -/
def SparseOk (tsInds : List (List ι)) (sparse : Finset ι) : Prop :=
  ∀ x ∈ sparse, ∀ i j y, i ≠ j → Holds tsInds i y → Holds tsInds j y → ∃ k, ConnectedPos tsInds i k ∧ Holds tsInds k x

theorem sparse_path {tsInds : List (List ι)} {ps : List (List (ℕ × ℕ))} (hP : PartPaths tsInds ps) {sparse : Finset ι} (hs : SparseOk tsInds sparse)
    {p : List (ℕ × ℕ)} (hp : p ∈ ps) (hne : p ≠ []) : ∀ x ∈ sparse, ∃ k, Touches tsInds.length p k ∧ x ∈ tsInds.getD k [] := by
  intro x hx
  obtain ⟨F, u, hF, hu⟩ := hP.single p hp hne
  obtain ⟨a, b, hab⟩ := trace_ne_nil hF hne
  obtain ⟨c, d, e, y, ⟨i, hi, hiy⟩, j, hj, hjy⟩ := hP.share p hp _ hab
  cases e
  have hij : i ≠ j := by
    rintro rfl
    obtain ⟨v, hv, hsub⟩ := trace_sub hF (Or.inr hab)
    have hn : (F.flatMap Term.tensors).Nodup := (replay_tensors_init hF).nodup_iff.2 List.nodup_range
    have hvn := (List.nodup_flatMap.1 hn).1 v hv
    have : ∀ {s t : Term}, Term.Sub s t → t.tensors.Nodup → s.tensors.Nodup := by
      intro s t h
      induction h with
      | refl => exact id
      | left _ ih => intro h; exact ih (List.nodup_append.1 h).1
      | right _ ih => intro h; exact ih (List.nodup_append.1 h).2.1
    exact (List.nodup_append.1 (this hsub hvn)).2.2 i hi i hj rfl
  obtain ⟨k, hk, hkx⟩ := hs x hx i j y hij hiy hjy
  exact ⟨k, conn_touch hP hp ⟨_, hab, by simp [Term.tensors, hi]⟩ hk, hkx⟩

theorem Parts.make {σ κ ρ V : Type} {A : Anneal σ κ ρ V} {betas : List ℚ} {L seed : ℕ} {B : Option ℕ} {ps : List (List (ℕ × ℕ))} {ks : List κ}
    (h : Parts A betas L seed B ps ks) : ∀ p ∈ ps, p ≠ [] → ∃ o, A.make seed p = some (.ok o) := by
  induction h with
  | nil => simp
  | empty _ ih =>
    intro p hp hne
    rcases List.mem_cons.1 hp with rfl | hp
    · exact (hne rfl).elim
    · exact ih p hp hne
  | @path B p ps k ks o o' h1 h2 h3 h4 h5 ih =>
    intro q hq hne
    rcases List.mem_cons.1 hq with rfl | hq
    · exact ⟨o, h2⟩
    · exact ih q hq hne

/-- The constructors succeed only if the sparse indices are all in the part. -/
theorem sparse_of_core {cm : PyCM ι} {order : List ι} {dims : Dims} {m : CostModel ℤ} (h : cm.core order dims = .ok m) :
    cm.sparse.getD ∅ ⊆ order.toFinset := by
  unfold PyCM.core at h
  simp only at h
  split at h
  · next h0 => rw [h0]; simp
  · split at h
    · cases h
    · next h1 => rwa [not_not] at h1

theorem sparseOk_of_make {N : NetworkRec ι} {enum : Finset ι → List ι} (hN : N.Plain) (he : EnumOk enum) {ps : List (List (ℕ × ℕ))} (hP : PartPaths N.tsInds ps) {cm : PyCM ι}
    (h : ∀ p ∈ ps, p ≠ [] → ∀ pt, N.tree enum p = .ok pt → ∃ m, cm.core pt.indsOrder pt.core.dims = .ok m) : SparseOk N.tsInds (cm.sparse.getD ∅) := by
  intro x hx i j y hij hi hj
  obtain ⟨p, hp, t, ht, hit, hjt⟩ := hP.together i j y hij hi hj
  have hne : p ≠ [] := by rintro rfl; cases ht
  obtain ⟨pt, T, F, u, hpt, hc, ho, hti, hv, hd, hF, hu, hTu, htch, hord⟩ := part_tree hN he hP hp hne
  obtain ⟨m, hm⟩ := h p hp hne pt hpt
  obtain ⟨k, hk, hkx⟩ := (hord x).1 (List.mem_toFinset.1 (sparse_of_core hm hx))
  exact ⟨k, touch_conn hP hp ⟨t, ht, hit⟩ hk, hkx⟩

/-- The merged path adds contractions exactly if the network is not connected. -/
theorem rest_nil_iff {tsInds : List (List ι)} {ps qs : List (List (ℕ × ℕ))} (hP : PartPaths tsInds ps) (hqs : ps ≠ [] → List.Forall₂ (SameTouch tsInds.length) ps qs)
    (hnil : ps = [] → qs = List.replicate tsInds.length []) {pre rest : List (ℕ × ℕ)} (hv : ValidPath tsInds.length pre)
    (hlen : (pre ++ rest).length = tsInds.length - 1)
    (htr : List.Forall₂ Term.Same (trace (initTerms tsInds.length) pre) ((qs.map (trace (initTerms tsInds.length))).flatten)) :
    rest = [] ↔ AllConnected tsInds := by
  obtain ⟨G, hG⟩ := hv
  change replay (initTerms tsInds.length) pre = some G at hG
  rw [List.length_append] at hlen
  have hGl := (Linear.replay_length hG).1
  have hil : (initTerms tsInds.length).length = tsInds.length := by simp [initTerms]
  constructor
  · rintro rfl
    by_cases hn : 2 ≤ tsInds.length
    · simp only [List.length_nil] at hlen
      obtain ⟨u, rfl⟩ : ∃ u, G = [u] := List.length_eq_one_iff.1 (by omega)
      have hall : ∀ k < tsInds.length, k ∈ u.tensors := by
        intro k hk
        have := (replay_tensors_init hG).mem_iff.2 (List.mem_range.2 hk)
        simpa using this
      obtain ⟨a, b, rfl⟩ : ∃ a b, u = .pair a b := by
        cases u with
        | pair a b => exact ⟨_, _, rfl⟩
        | tensor i =>
          have h0 := hall 0 (by omega)
          have h1 := hall 1 (by omega)
          simp only [Term.tensors, List.mem_singleton] at h0 h1
          omega
      obtain ⟨t, ht, hs⟩ := forall₂_mem_left htr (replay_sub_init hG (List.mem_singleton_self _) .refl)
      obtain ⟨l, hl, htl⟩ := List.mem_flatten.1 ht
      obtain ⟨q, hq, rfl⟩ := List.mem_map.1 hl
      have hps : ps ≠ [] := by
        intro h
        rw [hnil h] at hq
        rw [(List.mem_replicate.1 hq).2] at htl
        cases htl
      obtain ⟨p, hp, hpq⟩ := forall₂_mem_right (hqs hps) hq
      exact connected_of_path hP hp fun k hk => (hpq.2 k).1 ⟨t, htl, hs.tensors.mem_iff.1 (hall k hk)⟩
    · intro i hi j hj
      have : i = j := by omega
      subst this
      exact .refl
  · intro hc
    by_cases hn : 2 ≤ tsInds.length
    · obtain ⟨p, hp, hall⟩ := connected_one hP hc hn
      obtain ⟨q, hq, ⟨⟨F, hF, h1⟩, ht⟩⟩ := forall₂_mem_left (hqs (List.ne_nil_of_mem hp)) hp
      have hF1 := touches_all hF h1 fun k hk => (ht k).2 (hall k hk)
      have hFl := (Linear.replay_length hF).1
      have hle : (trace (initTerms tsInds.length) q).length ≤ ((qs.map (trace (initTerms tsInds.length))).flatten).length := by
        rw [List.length_flatten]
        exact List.le_sum_of_mem (List.mem_map_of_mem (List.mem_map_of_mem hq))
      rw [← htr.length_eq, trace_length hF, trace_length hG] at hle
      have : rest.length = 0 := by omega
      exact List.length_eq_zero_iff.1 this
    · have : rest.length = 0 := by omega
      exact List.length_eq_zero_iff.1 this

/-- What the added contractions cost. -/
theorem pathCost_append {cost : Finset ι → ℤ} {tsInds : List (List ι)} {out extra : Finset ι} (hpos : ∀ s, (∀ x ∈ s, x ∈ extra ∨ ∃ k, Holds tsInds k x) → 0 < cost s)
    {pre rest : List (ℕ × ℕ)} (hv : ValidPath tsInds.length pre) (hr : ValidPath tsInds.length (pre ++ rest)) :
    pathCost cost tsInds out extra pre + rest.length ≤ pathCost cost tsInds out extra (pre ++ rest) := by
  obtain ⟨G, hG⟩ := hv
  obtain ⟨H, hH⟩ := hr
  have hG' : replay (initTerms tsInds.length) pre = some G := hG
  have hrest : replay G rest = some H := by
    rw [← Linear.replay_append hG']
    exact hH
  unfold pathCost
  rw [Linear.trace_append hG', List.map_append, List.sum_append]
  have : (rest.length : ℤ) ≤ ((trace G rest).map (pairCost cost tsInds out extra)).sum := by
    rw [← trace_length hrest]
    have key : ∀ l : List Term, (∀ t ∈ l, ∃ a b, t = .pair a b) → (l.length : ℤ) ≤ (l.map (pairCost cost tsInds out extra)).sum := by
      intro l
      induction l with
      | nil => intro _; simp
      | cons t l ih =>
        intro hl
        obtain ⟨a, b, rfl⟩ := hl t List.mem_cons_self
        have h1 := ih fun t ht => hl t (List.mem_cons_of_mem _ ht)
        have hti : ∀ (c : Term) x, x ∈ termInds tsInds out c → ∃ k, Holds tsInds k x := by
          intro c x hx
          obtain ⟨k, -, hk⟩ := List.mem_flatMap.1 (List.mem_toFinset.1 (Finset.mem_filter.1 hx).1)
          exact ⟨k, hk⟩
        have h2 : 0 < cost (termInds tsInds out a ∪ termInds tsInds out b ∪ extra) := hpos _ fun x hx => by
          rcases Finset.mem_union.1 hx with hx | hx
          · rcases Finset.mem_union.1 hx with hx | hx <;> exact Or.inr (hti _ x hx)
          · exact Or.inl hx
        simp only [List.length_cons, List.map_cons, List.sum_cons, pairCost]
        push_cast
        omega
    exact key _ fun t ht => trace_pair hrest ht
  omega

theorem network_cost_pos {N : NetworkRec ι} {cm : PyCM ι} (hN : N.Plain) (hcm : cm.Ok) {s : Finset ι} (hs : ∀ x ∈ s, ∃ k, Holds N.tsInds k x) :
    0 < N.cost cm s := by
  refine nameCost_pos hcm fun x hx => ?_
  obtain ⟨k, hk⟩ := hs x hx
  unfold Holds at hk
  have hkl : k < N.tsInds.length := by
    by_contra h
    rw [List.getD_eq_default _ _ (by omega)] at hk; cases hk
  rw [List.getD_eq_getElem _ _ hkl] at hk
  obtain ⟨d, hd0, hd⟩ := hN.dims _ (List.getElem_mem hkl) x hk
  simp only [NetworkRec.dim, hd, Option.getD_some]
  omega

end TNCO
