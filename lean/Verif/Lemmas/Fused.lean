import Verif.Lemmas.Slice
import Verif.Lemmas.Held
import Verif.Lemmas.Merge
import Verif.Lemmas.AnnealConn

/-!
# Contracting what a path leaves

A network is contracted along a path; then a path for the tensors that are left is a path for the network, with the same indices and costs.
-/

namespace TNCO
variable {ι : Type} [DecidableEq ι]

/-- The bracketing `t` of the terms `F`. -/
def Term.over (F : List Term) : Term → Term
  | .tensor i => F.getD i (.tensor 0)
  | .pair a b => .pair (a.over F) (b.over F)

theorem replay_over (F : List Term) (path : List (ℕ × ℕ)) (ts : List Term) :
    replay (ts.map (Term.over F)) path = (replay ts path).map (List.map (Term.over F)) := by
  induction path generalizing ts with
  | nil => rfl
  | cons s path ih =>
    obtain ⟨x, y⟩ := s
    simp only [replay, List.getElem?_map]
    split
    · rfl
    · cases h1 : ts[min x y]? <;> cases h2 : ts[max x y]? <;> simp only [Option.map_none, Option.map_some]
      rw [← ih]
      simp [List.eraseIdx_map, Term.over]

theorem trace_over (F : List Term) (path : List (ℕ × ℕ)) (ts : List Term) :
    trace (ts.map (Term.over F)) path = (trace ts path).map (Term.over F) := by
  induction path generalizing ts with
  | nil => rfl
  | cons s path ih =>
    obtain ⟨x, y⟩ := s
    simp only [trace, List.getElem?_map]
    cases h1 : ts[min x y]? <;> cases h2 : ts[max x y]? <;> simp only [Option.map_none, Option.map_some, List.map_nil, List.map_cons]
    rw [← ih]
    simp [List.eraseIdx_map, Term.over]

theorem init_over (F : List Term) : (initTerms F.length).map (Term.over F) = F := by
  apply List.ext_getElem
  · simp [initTerms]
  · intro i h1 h2
    simp [initTerms, Term.over, List.getElem?_eq_getElem h2]

theorem tensors_over (F : List Term) (t : Term) (k : ℕ) (ht : ∀ i ∈ t.tensors, i < F.length) :
    k ∈ (t.over F).tensors ↔ ∃ i ∈ t.tensors, ∃ u, F[i]? = some u ∧ k ∈ u.tensors := by
  induction t with
  | tensor i =>
    have hi := ht i (by simp [Term.tensors])
    simp [Term.over, Term.tensors, List.getElem?_eq_getElem hi]
  | pair a b iha ihb =>
    have ha := iha fun i hi => ht i (by simp [Term.tensors, hi])
    have hb := ihb fun i hi => ht i (by simp [Term.tensors, hi])
    simp only [Term.over, Term.tensors, List.mem_append, ha, hb]
    constructor
    · rintro (⟨i, hi, h⟩ | ⟨i, hi, h⟩)
      · exact ⟨i, Or.inl hi, h⟩
      · exact ⟨i, Or.inr hi, h⟩
    · rintro ⟨i, hi | hi, h⟩
      · exact Or.inl ⟨i, hi, h⟩
      · exact Or.inr ⟨i, hi, h⟩

/-- `T'` are the indices of what a path leaves of `T`. -/
structure LeftOf (T : List (List ι)) (out : Finset ι) (path : List (ℕ × ℕ)) (F : List Term) (T' : List (List ι)) : Prop where
  terms : replay (initTerms T.length) path = some F
  inds : List.Forall₂ (fun xs t => ∀ x, x ∈ xs ↔ x ∈ termInds T out t) T' F

variable {T T' : List (List ι)} {out : Finset ι} {path : List (ℕ × ℕ)} {F : List Term}

namespace LeftOf

theorem length (h : LeftOf T out path F T') : T'.length = F.length := h.inds.length_eq

theorem mem (h : LeftOf T out path F T') {i : ℕ} {x : ι} : x ∈ T'.getD i [] ↔ ∃ u, F[i]? = some u ∧ x ∈ termInds T out u := by
  by_cases hi : i < F.length
  · have hi' : i < T'.length := h.length ▸ hi
    rw [List.getD_eq_getElem _ _ hi', List.getElem?_eq_getElem hi]
    have := h.inds.get (i := i) hi' hi
    simp only [List.get_eq_getElem] at this
    rw [this x]
    simp
  · rw [List.getD_eq_default _ _ (by rw [h.length]; omega), List.getElem?_eq_none (by omega)]
    simp

/-- Every tensor is in one of the terms. -/
theorem find (h : LeftOf T out path F T') {q : ℕ} (hq : q < T.length) : ∃ (i : ℕ) (u : Term), F[i]? = some u ∧ q ∈ u.tensors := by
  have := (replay_tensors_init h.terms).mem_iff.2 (List.mem_range.2 hq)
  obtain ⟨u, hu, hk⟩ := List.mem_flatMap.1 this
  obtain ⟨i, hi, rfl⟩ := List.getElem_of_mem hu
  exact ⟨i, _, List.getElem?_eq_getElem hi, hk⟩

theorem lt (h : LeftOf T out path F T') {i : ℕ} {u : Term} (hu : F[i]? = some u) {q : ℕ} (hq : q ∈ u.tensors) : q < T.length :=
  List.mem_range.1 ((replay_tensors_init h.terms).mem_iff.1 (List.mem_flatMap.2 ⟨u, List.mem_of_getElem? hu, hq⟩))

/-- A tensor is in one of the terms only. -/
theorem one (h : LeftOf T out path F T') {i j q : ℕ} {u v : Term} (hu : F[i]? = some u) (hv : F[j]? = some v) (h1 : q ∈ u.tensors) (h2 : q ∈ v.tensors) : i = j := by
  have e := replay_disjoint h.terms (List.mem_of_getElem? hu) (List.mem_of_getElem? hv) h1 h2
  subst e
  obtain ⟨hi, e1⟩ := List.getElem?_eq_some_iff.1 hu
  obtain ⟨hj, e2⟩ := List.getElem?_eq_some_iff.1 hv
  exact (List.Nodup.getElem_inj_iff (replay_nodup h.terms)).1 (e1.trans e2.symm)

theorem lt_of_mem {x : ι} {q : ℕ} (hx : x ∈ T.getD q []) : q < T.length := by
  by_contra hq
  rw [List.getD_eq_default _ _ (by omega)] at hx
  cases hx

/-- An index of two tensors in different terms is an index of both terms. -/
theorem shared (h : LeftOf T out path F T') {i j p q : ℕ} {u v : Term} (hu : F[i]? = some u) (hv : F[j]? = some v) (hp : p ∈ u.tensors) (hq : q ∈ v.tensors)
    (hij : i ≠ j) {x : ι} (hxp : x ∈ T.getD p []) (hxq : x ∈ T.getD q []) : x ∈ T'.getD i [] :=
  h.mem.2 ⟨u, hu, mem_termInds.2 ⟨⟨p, hp, hxp⟩, Or.inr (Or.inl ⟨q, lt_of_mem hxq, fun hqu => hij (h.one hu hv hqu hq), hxq⟩)⟩⟩

/-- The indices of a bracketing of the terms are those of the bracketing of the tensors. -/
theorem inds_over (h : LeftOf T out path F T') (t : Term) (ht : ∀ i ∈ t.tensors, i < F.length) : termInds T' out t = termInds T out (t.over F) := by
  ext x
  rw [mem_termInds, mem_termInds]
  constructor
  · rintro ⟨⟨i, hi, hxi⟩, hs⟩
    obtain ⟨u, hu, hxu⟩ := h.mem.1 hxi
    obtain ⟨⟨p, hp, hxp⟩, hsu⟩ := mem_termInds.1 hxu
    refine ⟨⟨p, (tensors_over F t p ht).2 ⟨i, hi, u, hu, hp⟩, hxp⟩, ?_⟩
    rcases hs with hs | ⟨j, hj, hjt, hxj⟩ | hs
    · exact Or.inl hs
    · obtain ⟨v, hv, hxv⟩ := h.mem.1 hxj
      obtain ⟨⟨q, hq, hxq⟩, -⟩ := mem_termInds.1 hxv
      refine Or.inr (Or.inl ⟨q, lt_of_mem hxq, fun hqt => ?_, hxq⟩)
      obtain ⟨k, hk, w, hw, hqw⟩ := (tensors_over F t q ht).1 hqt
      exact hjt (h.one hv hw hq hqw ▸ hk)
    · rcases hsu with hsu | ⟨q, hq, hqu, hxq⟩ | hsu
      · exact Or.inl hsu
      · obtain ⟨j, v, hv, hqv⟩ := h.find hq
        have hij : i ≠ j := by
          rintro rfl
          rw [hu, Option.some.injEq] at hv
          exact hqu (hv ▸ hqv)
        have hxj := h.shared hv hu hqv hp hij.symm hxq hxp
        exact absurd (hs i (lt_of_mem hxi) j (lt_of_mem hxj) ⟨hxi, hxj⟩) hij
      · exact Or.inr (Or.inr hsu)
  · rintro ⟨⟨p, hp, hxp⟩, hs⟩
    obtain ⟨i, hi, u, hu, hpu⟩ := (tensors_over F t p ht).1 hp
    rcases hs with hs | ⟨q, hq, hqt, hxq⟩ | hs
    · exact ⟨⟨i, hi, h.mem.2 ⟨u, hu, mem_termInds.2 ⟨⟨p, hpu, hxp⟩, Or.inl hs⟩⟩⟩, Or.inl hs⟩
    · obtain ⟨j, v, hv, hqv⟩ := h.find hq
      have hjt : j ∉ t.tensors := fun hj => hqt ((tensors_over F t q ht).2 ⟨j, hj, v, hv, hqv⟩)
      have hij : i ≠ j := fun e => hjt (e ▸ hi)
      have hxj := h.shared hv hu hqv hpu hij.symm hxq hxp
      exact ⟨⟨i, hi, h.shared hu hv hpu hqv hij hxp hxq⟩, Or.inr (Or.inl ⟨j, lt_of_mem hxj, hjt, hxj⟩)⟩
    · refine ⟨⟨i, hi, h.mem.2 ⟨u, hu, mem_termInds.2 ⟨⟨p, hpu, hxp⟩, Or.inr (Or.inr hs)⟩⟩⟩, Or.inr (Or.inr ?_)⟩
      rintro a - b - ⟨ha, hb⟩
      obtain ⟨v, hv, hxv⟩ := h.mem.1 ha
      obtain ⟨w, hw, hxw⟩ := h.mem.1 hb
      obtain ⟨⟨q, hq, hxq⟩, -⟩ := mem_termInds.1 hxv
      obtain ⟨⟨r, hr, hxr⟩, -⟩ := mem_termInds.1 hxw
      have := hs q (lt_of_mem hxq) r (lt_of_mem hxr) ⟨hxq, hxr⟩
      subst this
      exact h.one hv hw hq hr

theorem over (h : LeftOf T out path F T') {q : List (ℕ × ℕ)} {G : List Term} (hG : replay (initTerms T'.length) q = some G) :
    replay (initTerms T.length) (path ++ q) = some (G.map (Term.over F)) ∧
      trace (initTerms T.length) (path ++ q) = trace (initTerms T.length) path ++ (trace (initTerms T'.length) q).map (Term.over F) := by
  rw [h.length] at hG ⊢
  rw [Linear.replay_append h.terms, Linear.trace_append h.terms]
  constructor
  · conv_lhs => rw [← init_over F]
    rw [replay_over, hG]; rfl
  · congr 1
    conv_lhs => rw [← init_over F]
    rw [trace_over]

/-- The terms of a path are terms of tensors. -/
theorem trace_lt {n : ℕ} {q : List (ℕ × ℕ)} {G : List Term} (hG : replay (initTerms n) q = some G) {t : Term} (ht : t ∈ trace (initTerms n) q) :
    ∀ i ∈ t.tensors, i < n := by
  have key : ∀ (q : List (ℕ × ℕ)) (ts G : List Term), replay ts q = some G → ∀ t ∈ trace ts q, ∀ i ∈ t.tensors, ∃ s ∈ ts, i ∈ s.tensors := by
    intro q
    induction q with
    | nil => intro ts G _ t ht; simp [trace] at ht
    | cons s q ih =>
      obtain ⟨x, y⟩ := s
      intro ts G h t ht
      simp only [replay] at h
      split at h
      · cases h
      · split at h
        · next a b ha hb =>
          simp only [trace, ha, hb, List.mem_cons] at ht
          have hpair : ∀ i ∈ (Term.pair a b).tensors, ∃ s ∈ ts, i ∈ s.tensors := by
            intro i hi
            rcases List.mem_append.1 hi with hi | hi
            · exact ⟨a, List.mem_of_getElem? ha, hi⟩
            · exact ⟨b, List.mem_of_getElem? hb, hi⟩
          rcases ht with rfl | ht
          · exact hpair
          · intro i hi
            obtain ⟨s, hs, his⟩ := ih _ _ h t ht i hi
            rcases List.mem_append.1 hs with hs | hs
            · exact ⟨s, List.mem_of_mem_eraseIdx (List.mem_of_mem_eraseIdx hs), his⟩
            · rw [List.mem_singleton] at hs
              subst hs
              exact hpair i his
        · cases h
  intro i hi
  obtain ⟨s, hs, his⟩ := key q _ _ hG t ht i hi
  obtain ⟨k, hk, rfl⟩ := List.mem_map.1 hs
  simp only [Term.tensors, List.mem_singleton] at his
  subst his
  exact List.mem_range.1 hk

/-- The cost of the path and of what follows. -/
theorem cost {R : Type} [AddCommMonoid R] (h : LeftOf T out path F T') (cost : Finset ι → R) (extra : Finset ι) {q : List (ℕ × ℕ)} {G : List Term}
    (hG : replay (initTerms T'.length) q = some G) :
    pathCost cost T out extra (path ++ q) = pathCost cost T out extra path + pathCost cost T' out extra q := by
  unfold pathCost
  rw [(h.over hG).2, List.map_append, List.sum_append, List.map_map]
  congr 2
  refine List.map_congr_left fun t ht => ?_
  have hlt : ∀ i ∈ t.tensors, i < F.length := fun i hi => h.length ▸ trace_lt hG ht i hi
  cases t with
  | tensor i => exact absurd (trace_isPair ht) (by simp [Term.isPair])
  | pair a b =>
    simp only [Function.comp_apply, Term.over, pairCost]
    rw [h.inds_over a fun i hi => hlt i (by simp [Term.tensors, hi]), h.inds_over b fun i hi => hlt i (by simp [Term.tensors, hi])]

/-- What is left of a connected network is connected. -/
theorem connected (h : LeftOf T out path F T') (hc : AllConnected T) : AllConnected T' := by
  have step : ∀ p q, ConnectedPos T p q → ∀ (i : ℕ) (u : Term), F[i]? = some u → p ∈ u.tensors → q < T.length → ∃ (j : ℕ) (v : Term), F[j]? = some v ∧ q ∈ v.tensors ∧ ConnectedPos T' i j := by
    intro p q hpq
    induction hpq with
    | refl => intro i u hu hp _; exact ⟨i, u, hu, hp, .refl⟩
    | @tail a b _ hab ih =>
      intro i u hu hp hb
      obtain ⟨x, hxa, hxb⟩ := adjacent_iff.1 hab
      obtain ⟨j, v, hv, hav, hij⟩ := ih i u hu hp (lt_of_mem hxa)
      obtain ⟨k, w, hw, hbw⟩ := h.find hb
      by_cases hjk : j = k
      · subst hjk
        exact ⟨j, w, hw, hbw, hij⟩
      · exact ⟨k, w, hw, hbw, hij.tail (adjacent_iff.2 ⟨x, h.shared hv hw hav hbw hjk hxa hxb, h.shared hw hv hbw hav (Ne.symm hjk) hxb hxa⟩)⟩
  intro i hi j hj
  rw [h.length] at hi hj
  obtain ⟨p, hp⟩ := tensors_nonempty F[i]
  obtain ⟨q, hq⟩ := tensors_nonempty F[j]
  have hFi := List.getElem?_eq_getElem hi
  have hFj := List.getElem?_eq_getElem hj
  obtain ⟨k, v, hv, hqv, hik⟩ := step p q (hc p (h.lt hFi hp) q (h.lt hFj hq)) i _ hFi hp (h.lt hFj hq)
  rw [h.one hFj hv hq hqv]
  exact hik

/-- Every index that is left is an index of the network. -/
theorem sub (h : LeftOf T out path F T') {x : ι} (hx : x ∈ T'.flatten) : x ∈ T.flatten := by
  obtain ⟨xs, hxs, hx⟩ := List.mem_flatten.1 hx
  obtain ⟨t, -, ht⟩ := forall₂_mem_left h.inds hxs
  obtain ⟨⟨p, -, hxp⟩, -⟩ := mem_termInds.1 ((ht x).1 hx)
  have hp := lt_of_mem hxp
  rw [List.getD_eq_getElem _ _ hp] at hxp
  exact List.mem_flatten.2 ⟨_, List.getElem_mem hp, hxp⟩

/-- An index of the network that is an output is left. -/
theorem keeps (h : LeftOf T out path F T') {x : ι} (hx : x ∈ T.flatten) (ho : x ∈ out) : x ∈ T'.flatten := by
  obtain ⟨xs, hxs, hx⟩ := List.mem_flatten.1 hx
  obtain ⟨p, hp, rfl⟩ := List.getElem_of_mem hxs
  obtain ⟨i, u, hu, hpu⟩ := h.find hp
  have hxp : x ∈ T.getD p [] := by rw [List.getD_eq_getElem _ _ hp]; exact hx
  have : x ∈ T'.getD i [] := h.mem.2 ⟨u, hu, mem_termInds.2 ⟨⟨p, hpu, hxp⟩, Or.inl ho⟩⟩
  have hi := lt_of_mem this
  rw [List.getD_eq_getElem _ _ hi] at this
  exact List.mem_flatten.2 ⟨_, List.getElem_mem hi, this⟩

end LeftOf

/-- Costs and widths depend on the dimensions of the indices only. -/
theorem termInds_sub {t : Term} {x : ι} (hx : x ∈ termInds T out t) : x ∈ T.flatten := by
  obtain ⟨⟨p, -, hxp⟩, -⟩ := mem_termInds.1 hx
  have hp := LeftOf.lt_of_mem hxp
  rw [List.getD_eq_getElem _ _ hp] at hxp
  exact List.mem_flatten.2 ⟨_, List.getElem_mem hp, hxp⟩

theorem pathCost_congr {R : Type} [AddCommMonoid R] {c c' : Finset ι → R} {extra : Finset ι} (he : ∀ x ∈ extra, x ∈ T.flatten)
    (h : ∀ s : Finset ι, (∀ x ∈ s, x ∈ T.flatten) → c s = c' s) (q : List (ℕ × ℕ)) : pathCost c T out extra q = pathCost c' T out extra q := by
  unfold pathCost
  congr 1
  refine List.map_congr_left fun t _ => ?_
  cases t with
  | tensor i => rfl
  | pair a b =>
    refine h _ fun x hx => ?_
    rcases Finset.mem_union.1 hx with hx | hx
    · rcases Finset.mem_union.1 hx with hx | hx <;> exact termInds_sub hx
    · exact he x hx

theorem nameCost_congr {d d' : ι → ℕ} {s : Finset ι} (h : ∀ x ∈ s, d x = d' x) (sparse : Finset ι) (n : ℕ) : nameCost d sparse n s = nameCost d' sparse n s := by
  unfold nameCost
  split
  · rw [Finset.prod_congr rfl h]
  · rw [Finset.prod_congr rfl fun x hx => h x (Finset.mem_sdiff.1 hx).1, Finset.prod_congr rfl fun x hx => h x (Finset.mem_inter.1 hx).1]

theorem nameWidth_congr {W : Type} [AddCommMonoid W] [LinearOrder W] (log2 : ℕ → W) {d d' : ι → ℕ} {s : Finset ι} (h : ∀ x ∈ s, d x = d' x) (sparse : Finset ι) (n : ℕ) :
    nameWidth log2 d sparse n s = nameWidth log2 d' sparse n s := by
  unfold nameWidth
  split
  · exact Finset.sum_congr rfl fun x hx => by rw [h x hx]
  · rw [Finset.sum_congr rfl fun x hx => by rw [h x (Finset.mem_sdiff.1 hx).1],
      Finset.sum_congr (s₁ := s ∩ sparse) rfl fun x hx => by rw [h x (Finset.mem_inter.1 hx).1]]

theorem pathFits_congr {W : Type} [LinearOrder W] {w w' : Finset ι → W} {mw : W} {sl : Finset ι} (h : ∀ s : Finset ι, (∀ x ∈ s, x ∈ T.flatten) → w s = w' s)
    {q : List (ℕ × ℕ)} (hf : PathFits w mw T out sl q) : PathFits w' mw T out sl q := by
  intro a b hab
  obtain ⟨h1, h2, h3⟩ := hf a b hab
  have key : ∀ t, w (termInds T out t \ sl) = w' (termInds T out t \ sl) := fun t => h _ fun x hx => termInds_sub (Finset.mem_sdiff.1 hx).1
  rw [key] at h1 h2 h3
  exact ⟨h1, h2, h3⟩

end TNCO
