import Verif.Model.Decompose
import Verif.Lemmas.Dict
import Verif.Lemmas.NDArray
import Verif.Lemmas.Tensordot

/-! Decomposing one tensor. -/

namespace TNCO
variable {ι R : Type} [DecidableEq ι] [CommRing R] [DecidableEq R]

/-- The merged indices have the same value. -/
def Merged (H : List (ι × Finset ι)) (f : ι → ℕ) : Prop := ∀ x xs, dget H x = some xs → ∀ y ∈ xs, f y = f x

theorem merged_step (H : List (ι × Finset ι)) {x y : ι} (hxy : x ≠ y) (f : ι → ℕ) :
    Merged (dpop (dset H y ((dget H x).getD ∅ ∪ (dget H y).getD ∅ ∪ {x})) x) f ↔ Merged H f ∧ f x = f y := by
  have get : ∀ z, dget (dpop (dset H y ((dget H x).getD ∅ ∪ (dget H y).getD ∅ ∪ {x})) x) z =
      if z = x then none else if z = y then some ((dget H x).getD ∅ ∪ (dget H y).getD ∅ ∪ {x}) else dget H z := by
    intro z; rw [dget_dpop, dget_dset]
  unfold Merged
  simp only [get]
  constructor
  · intro h
    have hy := h y _ (by rw [if_neg hxy.symm, if_pos rfl])
    have h1 : f x = f y := hy x (by simp)
    refine ⟨?_, h1⟩
    intro z zs hz w hw
    by_cases hzx : z = x
    · subst hzx
      rw [h1]
      exact hy w (by simp [hz, hw])
    · by_cases hzy : z = y
      · subst hzy
        exact hy w (by simp [hz, hw])
      · exact h z zs (by rw [if_neg hzx, if_neg hzy]; exact hz) w hw
  · rintro ⟨h, h1⟩ z zs hz w hw
    split at hz
    · simp at hz
    · split at hz
      · rename_i hzy
        subst hzy
        simp only [Option.some.injEq] at hz
        rw [← hz] at hw
        rcases Finset.mem_union.1 hw with hw | hw
        · rcases Finset.mem_union.1 hw with hw | hw
          · cases hx : dget H x with
            | none => simp [hx] at hw
            | some xs => rw [hx] at hw; rw [← h1]; exact h x xs hx w hw
          · cases hx : dget H z with
            | none => simp [hx] at hw
            | some xs => rw [hx] at hw; exact h z xs hx w hw
        · rw [Finset.mem_singleton.1 hw]; exact h1
      · exact h z zs hz w hw

theorem isDiagonal_spec {a : NDArray R} {x y : ι} {rest : List ι} {d : ι → ℕ} (hs : a.shape = (x :: y :: rest).map d)
    (h : isDiagonal a = .ok true) :
    d x = d y ∧ ∀ f : ι → ℕ, (∀ z ∈ x :: y :: rest, f z < d z) → f x ≠ f y → a.get ((x :: y :: rest).map f) = 0 := by
  unfold isDiagonal at h
  rw [hs] at h
  simp only [List.map_cons] at h
  split at h
  · simp at h
  · rename_i hxy
    rw [not_not] at hxy
    split at h
    · simp at h
    · simp only [Except.ok.injEq, decide_eq_true_eq] at h
      refine ⟨hxy, fun f hf hne => ?_⟩
      have hf2 := forall2_map hf
      have hlt := ravel_lt hf2
      have hun := unravel_ravel hf2
      simp only [List.map_cons] at hlt hun
      have := h _ hlt
      rw [hun] at this
      simp only [List.getD_cons_zero, List.getD_cons_succ] at this
      rw [if_neg hne, sub_zero] at this
      unfold NDArray.get
      rw [hs]
      simpa using this

theorem stackDiagonal_spec {a c : NDArray R} {x y : ι} {rest : List ι} {d : ι → ℕ} (hs : a.shape = (x :: y :: rest).map d)
    (hd : d x = d y) (h : stackDiagonal a = .ok c) : c.shape = (y :: rest).map d ∧
      ∀ f : ι → ℕ, (∀ z ∈ y :: rest, f z < d z) → c.get ((y :: rest).map f) = a.get (f y :: f y :: rest.map f) := by
  unfold stackDiagonal at h
  rw [hs] at h
  simp only [List.map_cons] at h
  split at h
  · simp at h
  · rename_i n m r hne heq
    simp only [List.cons.injEq] at heq
    obtain ⟨rfl, rfl, rfl⟩ := heq
    simp only [Except.ok.injEq] at h
    rw [← h]
    refine ⟨by simp [hd], fun f hf => ?_⟩
    have hf2 := forall2_map hf
    have hun := unravel_ravel hf2
    simp only [List.map_cons] at hun
    unfold NDArray.get
    simp only [List.map_cons]
    rw [hd, hun]
    rfl
  · simp at h

theorem stackDiagonal_ok {a : NDArray R} {x y : ι} {rest : List ι} {d : ι → ℕ} (hs : a.shape = (x :: y :: rest).map d) (h0 : d x ≠ 0) :
    ∃ c, stackDiagonal a = .ok c := by
  unfold stackDiagonal
  rw [hs]
  simp only [List.map_cons]
  exact ⟨_, rfl⟩

theorem isDiagonal_ok {a : NDArray R} {x y : ι} {rest : List ι} {d : ι → ℕ} (hs : a.shape = (x :: y :: rest).map d) (h0 : d x ≠ 0) :
    ∃ b, isDiagonal a = .ok b := by
  unfold isDiagonal
  rw [hs]
  simp only [List.map_cons]
  split
  · exact ⟨_, rfl⟩
  · rw [if_neg (by intro h; exact h0 h.1)]; exact ⟨_, rfl⟩

theorem mem_axisPairs {n i j : ℕ} : (i, j) ∈ axisPairs n ↔ i < j ∧ j < n := by
  unfold axisPairs
  simp only [List.mem_flatMap, List.mem_range, List.mem_map, List.mem_filter, Prod.mk.injEq, decide_eq_true_eq]
  constructor
  · rintro ⟨a, h1, b, ⟨h2, h3⟩, rfl, rfl⟩; exact ⟨h3, h2⟩
  · rintro ⟨h1, h2⟩; exact ⟨i, by omega, j, ⟨h2, h1⟩, rfl, rfl⟩

/-- The indices in the order of `padAxes`. -/
theorem pad_spec {inds : List ι} (hn : inds.Nodup) {i j : ℕ} (hij : i < j) (hj : j < inds.length) :
    ∃ x y rest, (padAxes inds.length i j).mapM (fun p => inds[p]?) = some (x :: y :: rest) ∧ (x :: y :: rest).Perm inds ∧
      padAxes inds.length i j = (x :: y :: rest).map fun z => inds.idxOf z := by
  have hp : (padAxes inds.length i j).Perm (List.range inds.length) := by
    refine perm_of_mem ?_ List.nodup_range fun p => ?_
    · unfold padAxes
      rw [List.nodup_append]
      refine ⟨by simp; omega, List.nodup_range.filter _, ?_⟩
      intro a ha b hb hab
      rw [List.mem_filter] at hb
      simp only [decide_eq_true_eq] at hb
      exact hb.2 (hab ▸ ha)
    · unfold padAxes
      simp only [List.mem_append, List.mem_filter, List.mem_range, decide_eq_true_eq, List.mem_cons, List.not_mem_nil, or_false]
      constructor
      · rintro ((rfl | rfl) | h)
        · omega
        · omega
        · exact h.1
      · intro h
        by_cases h1 : p = i ∨ p = j
        · exact Or.inl h1
        · exact Or.inr ⟨h, h1⟩
  have hlt : ∀ p ∈ padAxes inds.length i j, p < inds.length := fun p hp' => List.mem_range.1 (hp.mem_iff.1 hp')
  set g : ℕ → ι := fun p => inds.getD p (inds[i]'(by omega)) with hg
  have hgm : ∀ p (h : p < inds.length), g p = inds[p] := fun p h => by rw [hg]; simp only; rw [List.getD_eq_getElem _ _ h]
  have hm : (padAxes inds.length i j).mapM (fun p => inds[p]?) = some ((padAxes inds.length i j).map g) :=
    mapM_of_forall' fun p hp' => by rw [List.getElem?_eq_getElem (hlt p hp'), hgm p (hlt p hp')]
  refine ⟨g i, g j, ((List.range inds.length).filter fun x => x ∉ [i, j]).map g, by rw [hm]; rfl, ?_, ?_⟩
  · have e : g i :: g j :: ((List.range inds.length).filter fun x => x ∉ [i, j]).map g = (padAxes inds.length i j).map g := rfl
    rw [e]
    refine (hp.map g).trans ?_
    have : (List.range inds.length).map g = inds := by
      refine List.ext_getElem (by simp) fun k h1 h2 => ?_
      rw [List.getElem_map, List.getElem_range, hgm k h2]
    rw [this]
  · have e : g i :: g j :: ((List.range inds.length).filter fun x => x ∉ [i, j]).map g = (padAxes inds.length i j).map g := rfl
    rw [e, List.map_map]
    conv_lhs => rw [← List.map_id (padAxes inds.length i j)]
    refine List.map_congr_left fun p hp' => ?_
    simp only [Function.comp_apply, id_eq]
    rw [hgm p (hlt p hp'), hn.idxOf_getElem]

theorem firstDiagonal_spec {a : NDArray R} {l : List (ℕ × ℕ)} {i j : ℕ} (h : firstDiagonal a l = .ok (some (i, j))) :
    (i, j) ∈ l ∧ ∃ b, a.transpose (padAxes a.ndim i j) = .ok b ∧ isDiagonal b = .ok true := by
  induction l with
  | nil => simp [firstDiagonal] at h
  | cons p l ih =>
    obtain ⟨i', j'⟩ := p
    unfold firstDiagonal at h
    split at h
    · simp at h
    · rename_i b hb
      split at h
      · simp at h
      · rename_i hd
        simp only [Except.ok.injEq, Option.some.injEq, Prod.mk.injEq] at h
        obtain ⟨rfl, rfl⟩ := h
        exact ⟨by simp, b, hb, hd⟩
      · obtain ⟨h1, h2⟩ := ih h
        exact ⟨by simp [h1], h2⟩

/-- What the decomposition of a tensor means. -/
structure Decomposed (d : ι → ℕ) (a : NDArray R) (inds : List ι) (H : List (ι × Finset ι)) (a' : NDArray R) (inds' : List ι)
    (H' : List (ι × Finset ι)) : Prop where
  shape : a'.shape = inds'.map d
  nodup : inds'.Nodup
  sub : ∀ x ∈ inds', x ∈ inds
  value : ∀ f : ι → ℕ, (∀ x ∈ inds, f x < d x) → Merged H f →
    (Merged H' f → a.get (inds.map f) = a'.get (inds'.map f)) ∧ (¬ Merged H' f → a.get (inds.map f) = 0)
  mono : ∀ f : ι → ℕ, Merged H' f → Merged H f
  keys : (H.map Prod.fst).Nodup → (H'.map Prod.fst).Nodup
  inds_of : ∀ x xs, dget H' x = some xs → (∃ y ys, dget H y = some ys ∧ (x = y ∨ x ∈ ys)) ∨ x ∈ inds
  inds_of' : ∀ x xs, dget H' x = some xs → ∀ z ∈ xs, (∃ y ys, dget H y = some ys ∧ (z = y ∨ z ∈ ys)) ∨ z ∈ inds
  dims : Merged H d → Merged H' d
  indep : (∀ g : ι → ℕ, ∃ f, Merged H f ∧ ∀ x ∈ inds, f x = g x) → ∀ g : ι → ℕ, ∃ f, Merged H' f ∧ ∀ x ∈ inds', f x = g x
  cover : inds' = [] ∨ ∀ x ∈ inds, ∃ y ∈ inds', ∀ f, Merged H' f → f x = f y
  single : inds.length ≤ 1 → inds' = inds

theorem decomposeTensor_spec {d : ι → ℕ} (fuel : ℕ) : ∀ {a : NDArray R} {inds : List ι} {H : List (ι × Finset ι)}, a.shape = inds.map d →
    inds.Nodup → ∀ {a' inds' H'}, decomposeTensor fuel a inds H = some (.ok ((a', inds'), H')) → Decomposed d a inds H a' inds' H' := by
  induction fuel with
  | zero => intro a inds H _ _ a' inds' H' h; simp [decomposeTensor] at h
  | succ fuel ih =>
    intro a inds H hs hn a' inds' H' h
    have hnd : a.ndim = inds.length := by unfold NDArray.ndim; rw [hs]; simp
    unfold decomposeTensor at h
    rw [if_neg (not_not.2 hnd), if_neg (not_not.2 hn)] at h
    cases hfd : firstDiagonal a (axisPairs a.ndim) with
    | error e => rw [hfd] at h; simp at h
    | ok o =>
      rw [hfd] at h
      cases o with
      | none =>
        simp only [Option.some.injEq, Except.ok.injEq, Prod.mk.injEq] at h
        obtain ⟨⟨rfl, rfl⟩, rfl⟩ := h
        exact ⟨hs, hn, fun _ h => h, fun f _ hm => ⟨fun _ => rfl, fun hh => absurd hm hh⟩, fun _ h => h, fun h => h,
          fun x xs h => Or.inl ⟨x, xs, h, Or.inl rfl⟩, fun x xs h z hz => Or.inl ⟨x, xs, h, Or.inr hz⟩, fun h => h, fun h => h,
          Or.inr fun x hx => ⟨x, hx, fun _ _ => rfl⟩, fun _ => rfl⟩
      | some p =>
        obtain ⟨i, j⟩ := p
        obtain ⟨hm, b, hb, hbd⟩ := firstDiagonal_spec hfd
        obtain ⟨hij, hj⟩ := mem_axisPairs.1 hm
        rw [hnd] at hj
        obtain ⟨x, y, rest, e1, e2, e3⟩ := pad_spec hn hij hj
        obtain ⟨b', hb', hbs, hbg⟩ := transpose_named hs hn e2
        rw [hnd] at hb
        rw [← e3, hb] at hb'
        obtain rfl := Except.ok.inj hb'
        obtain ⟨hd, hz⟩ := isDiagonal_spec hbs hbd
        have hpn : (x :: y :: rest).Nodup := e2.nodup_iff.2 hn
        have hxy : x ≠ y := by
          rintro rfl
          simp at hpn
        have hmem : ∀ z, z ∈ x :: y :: rest ↔ z ∈ inds := fun z => e2.mem_iff
        simp only [hnd, e1, hb] at h
        set H1 := dpop (dset H y ((dget H x).getD ∅ ∪ (dget H y).getD ∅ ∪ {x})) x with hH1
        have hget : ∀ z, dget H1 z = if z = x then none else if z = y then some ((dget H x).getD ∅ ∪ (dget H y).getD ∅ ∪ {x}) else dget H z := by
          intro z; rw [hH1, dget_dpop, dget_dset]
        have hms : ∀ f, Merged H1 f ↔ Merged H f ∧ f x = f y := merged_step H hxy
        have hkeys : (H.map Prod.fst).Nodup → (H1.map Prod.fst).Nodup := fun h => dpop_nodup (dset_nodup h _ _) _
        have hk1 : ∀ z zs, dget H1 z = some zs → (∃ w ws, dget H w = some ws ∧ (z = w ∨ z ∈ ws)) ∨ z ∈ inds := by
          intro z zs hzz
          rw [hget] at hzz
          split at hzz
          · simp at hzz
          · split at hzz
            · rename_i hzy; subst hzy; exact Or.inr ((hmem _).1 (by simp))
            · exact Or.inl ⟨z, zs, hzz, Or.inl rfl⟩
        have hk2 : ∀ z zs, dget H1 z = some zs → ∀ u ∈ zs, (∃ w ws, dget H w = some ws ∧ (u = w ∨ u ∈ ws)) ∨ u ∈ inds := by
          intro z zs hzz u hu
          rw [hget] at hzz
          split at hzz
          · simp at hzz
          · split at hzz
            · simp only [Option.some.injEq] at hzz
              rw [← hzz] at hu
              rcases Finset.mem_union.1 hu with hu | hu
              · rcases Finset.mem_union.1 hu with hu | hu
                · cases hx : dget H x with
                  | none => simp [hx] at hu
                  | some ws => rw [hx] at hu; exact Or.inl ⟨x, ws, hx, Or.inr hu⟩
                · cases hx : dget H y with
                  | none => simp [hx] at hu
                  | some ws => rw [hx] at hu; exact Or.inl ⟨y, ws, hx, Or.inr hu⟩
              · rw [Finset.mem_singleton.1 hu]; exact Or.inr ((hmem _).1 (by simp))
            · exact Or.inl ⟨z, zs, hzz, Or.inr hu⟩
        cases hst : stackDiagonal b with
        | error e => rw [hst] at h; simp at h
        | ok c =>
          rw [hst] at h
          simp only at h
          obtain ⟨hcs, hcg⟩ := stackDiagonal_spec hbs hd hst
          have hval : ∀ f : ι → ℕ, (∀ z ∈ inds, f z < d z) → (f x = f y → a.get (inds.map f) = c.get ((y :: rest).map f)) ∧
              (f x ≠ f y → a.get (inds.map f) = 0) := by
            intro f hf
            rw [← hbg f hf]
            refine ⟨fun hxy' => ?_, fun hne => hz f (fun z hz' => hf z ((hmem z).1 hz')) hne⟩
            rw [hcg f fun z hz' => hf z ((hmem z).1 (by simp [List.mem_cons.1 hz']))]
            simp [hxy']
          split at h
          · rename_i hall
            simp only [Option.some.injEq, Except.ok.injEq, Prod.mk.injEq] at h
            obtain ⟨⟨rfl, rfl⟩, rfl⟩ := h
            refine ⟨rfl, List.nodup_nil, by simp, ?_, fun f hf => ((hms f).1 hf).1, hkeys, hk1, hk2, fun hh => (hms d).2 ⟨hh, hd⟩,
              fun hi g => ?_, Or.inl rfl, fun hl => by omega⟩
            swap
            · obtain ⟨f, h1, h2⟩ := hi fun _ => 0
              refine ⟨f, (hms f).2 ⟨h1, ?_⟩, by simp⟩
              rw [h2 x ((hmem x).1 (by simp)), h2 y ((hmem y).1 (by simp))]
            intro f hf hmf
            obtain ⟨v1, v2⟩ := hval f hf
            refine ⟨fun hm1 => ?_, fun hm1 => v2 fun he => hm1 ((hms f).2 ⟨hmf, he⟩)⟩
            rw [v1 ((hms f).1 hm1).2]
            unfold NDArray.get
            rw [hall.2]
            rw [hcs]
            exact ravel_lt (forall2_map fun z hz' => hf z ((hmem z).1 (by simp [List.mem_cons.1 hz'])))
          · have hrec := ih hcs (List.nodup_cons.1 hpn).2 h
            refine ⟨hrec.shape, hrec.nodup, ?_, ?_, fun f hf => ((hms f).1 (hrec.mono f hf)).1, fun hh => hrec.keys (hkeys hh), ?_, ?_,
              fun hh => hrec.dims ((hms d).2 ⟨hh, hd⟩), fun hi => hrec.indep fun g => ?_, ?_, fun hl => by omega⟩
            rotate_left 4
            · obtain ⟨f, h1, h2⟩ := hi (Function.update g x (g y))
              have hxr : ∀ z ∈ y :: rest, f z = g z := by
                intro z hz'
                rw [h2 z ((hmem z).1 (List.mem_cons_of_mem _ hz')), Function.update_of_ne]
                rintro rfl
                exact (List.nodup_cons.1 hpn).1 hz'
              refine ⟨f, (hms f).2 ⟨h1, ?_⟩, hxr⟩
              rw [h2 x ((hmem x).1 (by simp)), Function.update_self, hxr y (by simp)]
            · refine hrec.cover.imp id fun hc z hz' => ?_
              rcases List.mem_cons.1 ((hmem z).2 hz') with rfl | hz'
              · obtain ⟨w, hw, hw2⟩ := hc y (by simp)
                exact ⟨w, hw, fun f hf => by rw [((hms f).1 (hrec.mono f hf)).2, hw2 f hf]⟩
              · exact hc z hz'
            · intro z hz'
              exact (hmem z).1 (List.mem_cons_of_mem _ (hrec.sub z hz'))
            · intro f hf hmf
              obtain ⟨v1, v2⟩ := hval f hf
              by_cases he : f x = f y
              · obtain ⟨r1, r2⟩ := hrec.value f (fun z hz' => hf z ((hmem z).1 (List.mem_cons_of_mem _ hz'))) ((hms f).2 ⟨hmf, he⟩)
                rw [v1 he]
                exact ⟨r1, r2⟩
              · exact ⟨fun hh => absurd ((hms f).1 (hrec.mono f hh)).2 he, fun _ => v2 he⟩
            · intro z zs hzz
              rcases hrec.inds_of z zs hzz with ⟨w, ws, hw, hw2⟩ | hz'
              · rcases hw2 with rfl | hw2
                · exact hk1 _ ws hw
                · exact hk2 w ws hw z hw2
              · exact Or.inr ((hmem z).1 (List.mem_cons_of_mem _ hz'))
            · intro z zs hzz u hu
              rcases hrec.inds_of' z zs hzz u hu with ⟨w, ws, hw, hw2⟩ | hz'
              · rcases hw2 with rfl | hw2
                · exact hk1 _ ws hw
                · exact hk2 w ws hw u hw2
              · exact Or.inr ((hmem u).1 (List.mem_cons_of_mem _ hz'))

/-- Without empty axes the decomposition succeeds. -/
theorem decomposeTensor_ok {d : ι → ℕ} (fuel : ℕ) : ∀ {a : NDArray R} {inds : List ι} {H : List (ι × Finset ι)}, a.shape = inds.map d →
    inds.Nodup → (∀ x ∈ inds, d x ≠ 0) → inds.length < fuel → ∃ r, decomposeTensor fuel a inds H = some (.ok r) := by
  induction fuel with
  | zero => intro a inds H _ _ _ h; omega
  | succ fuel ih =>
    intro a inds H hs hn h0 hl
    have hnd : a.ndim = inds.length := by unfold NDArray.ndim; rw [hs]; simp
    unfold decomposeTensor
    rw [if_neg (not_not.2 hnd), if_neg (not_not.2 hn)]
    have hfd : ∀ l : List (ℕ × ℕ), (∀ p ∈ l, p.1 < p.2 ∧ p.2 < inds.length) → ∃ o, firstDiagonal a l = .ok o := by
      intro l
      induction l with
      | nil => intro _; exact ⟨none, rfl⟩
      | cons p l ih2 =>
        obtain ⟨i, j⟩ := p
        intro hp
        obtain ⟨hij, hj⟩ := hp (i, j) (by simp)
        obtain ⟨x, y, rest, e1, e2, e3⟩ := pad_spec hn hij hj
        obtain ⟨b, hb, hbs, -⟩ := transpose_named hs hn e2
        obtain ⟨v, hv⟩ := isDiagonal_ok hbs (h0 x (e2.mem_iff.1 (by simp)))
        unfold firstDiagonal
        rw [hnd, e3, hb]
        simp only
        rw [hv]
        cases v with
        | true => exact ⟨_, rfl⟩
        | false => exact ih2 fun q hq => hp q (by simp [hq])
    obtain ⟨o, ho⟩ := hfd (axisPairs a.ndim) fun p hp => by
      have := mem_axisPairs.1 (show (p.1, p.2) ∈ _ from hp)
      rw [hnd] at this
      exact this
    rw [ho]
    cases o with
    | none => exact ⟨_, rfl⟩
    | some p =>
      obtain ⟨i, j⟩ := p
      obtain ⟨hm, b, hb, hbd⟩ := firstDiagonal_spec ho
      obtain ⟨hij, hj⟩ := mem_axisPairs.1 hm
      rw [hnd] at hj
      obtain ⟨x, y, rest, e1, e2, e3⟩ := pad_spec hn hij hj
      obtain ⟨b', hb', hbs, -⟩ := transpose_named hs hn e2
      rw [hnd] at hb
      rw [← e3, hb] at hb'
      obtain rfl := Except.ok.inj hb'
      obtain ⟨hd, -⟩ := isDiagonal_spec hbs hbd
      have hpn : (x :: y :: rest).Nodup := e2.nodup_iff.2 hn
      simp only [hnd, e1, hb]
      obtain ⟨c, hc⟩ := stackDiagonal_ok hbs (h0 x (e2.mem_iff.1 (by simp)))
      rw [hc]
      simp only
      split
      · exact ⟨_, rfl⟩
      · refine ih (stackDiagonal_spec hbs hd hc).1 (List.nodup_cons.1 hpn).2 (fun z hz => h0 z (e2.mem_iff.1 (List.mem_cons_of_mem _ hz))) ?_
        have := e2.length_eq
        simp only [List.length_cons] at this ⊢
        omega

end TNCO
