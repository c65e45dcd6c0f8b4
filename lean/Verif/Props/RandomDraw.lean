import Verif.Lemmas.RandomDraw
import Verif.Props.RandomPath

/-!
# C80: the random contraction paths that can be drawn
-/

namespace TNCO
open Linear
variable {ι σ : Type} [DecidableEq ι]

/-- One path for each connected component of the network, in the order in which the components appear: each is
written with the smaller position first, contracts only tensors that share an index, only tensors of its
component, and leaves no two tensors that share an index. -/
structure DrawnPaths (tsInds : List (List ι)) (paths : List (List (ℕ × ℕ))) : Prop where
  valid : ∀ p ∈ paths, ValidPath tsInds.length p
  ord : ∀ p ∈ paths, ∀ e ∈ p, e.1 < e.2
  share : ∀ p ∈ paths, ∀ t ∈ trace (initTerms tsInds.length) p, ∃ a b, t = .pair a b ∧ Share tsInds a b
  joined : ∀ i j x, i ≠ j → Holds tsInds i x → Holds tsInds j x →
    ∃ p ∈ paths, ∃ t ∈ trace (initTerms tsInds.length) p, i ∈ t.tensors ∧ j ∈ t.tensors
  comps : ∃ comp : ι → ℕ, (∀ x ∈ tsInds.flatten, comp x < paths.length) ∧
    (∀ x ∈ tsInds.flatten, ∀ y ∈ tsInds.flatten, comp x = comp y ↔ ConnInds tsInds x y) ∧
    (∀ k < paths.length, ∃ x ∈ tsInds.flatten, comp x = k) ∧
    (∀ k (hk : k < paths.length) i, Touches tsInds.length paths[k] i → ∃ x, Holds tsInds i x ∧ comp x = k) ∧
    ∀ x ∈ tsInds.flatten, ∀ y ∈ tsInds.flatten, comp x < comp y →
      ∃ x' ∈ tsInds.flatten, comp x' = comp x ∧ tsInds.flatten.idxOf x' < tsInds.flatten.idxOf y

/-- The numbers of the components are determined by the order in which they appear. -/
theorem comp_unique {l : List ι} {f g : ι → ℕ} {A B : ℕ} (fA : ∀ x ∈ l, f x < A) (gB : ∀ x ∈ l, g x < B)
    (fs : ∀ k < A, ∃ x ∈ l, f x = k) (gs : ∀ k < B, ∃ x ∈ l, g x = k)
    (hk : ∀ x ∈ l, ∀ y ∈ l, f x = f y ↔ g x = g y)
    (fo : ∀ x ∈ l, ∀ y ∈ l, f x < f y → ∃ x' ∈ l, f x' = f x ∧ l.idxOf x' < l.idxOf y)
    (go : ∀ x ∈ l, ∀ y ∈ l, g x < g y → ∃ x' ∈ l, g x' = g x ∧ l.idxOf x' < l.idxOf y) :
    (∀ x ∈ l, f x = g x) ∧ A = B := by
  have descent : ∀ n, ∀ x ∈ l, ∀ y ∈ l, l.idxOf y ≤ n → f x < f y → g y < g x → False := by
    intro n
    induction n with
    | zero =>
      intro x hx y hy hn h1 h2
      obtain ⟨x', -, -, h3⟩ := fo x hx y hy h1
      omega
    | succ n ih =>
      intro x hx y hy hn h1 h2
      obtain ⟨x', hx', e, h3⟩ := fo x hx y hy h1
      have e' := (hk x' hx' x hx).1 e
      obtain ⟨y', hy', ey, h4⟩ := go y hy x' hx' (by omega)
      have ey' := (hk y' hy' y hy).2 ey
      exact ih x' hx' y' hy' (by omega) (by omega) (by omega)
  have mono : ∀ x ∈ l, ∀ y ∈ l, g x < g y → f x < f y := by
    intro x hx y hy h
    by_contra hlt
    rcases Nat.lt_or_eq_of_le (Nat.not_lt.1 hlt) with h' | h'
    · exact descent _ y hy x hx (le_refl _) h' h
    · have := (hk x hx y hy).1 h'.symm
      omega
  have heq : ∀ k, ∀ x ∈ l, f x = k → g x = k := by
    intro k
    induction k using Nat.strong_induction_on with
    | _ k ih =>
      intro x hx hfx
      rcases lt_trichotomy (g x) k with h | h | h
      · obtain ⟨y, hy, hfy⟩ := fs (g x) (by have := fA x hx; omega)
        have := ih _ h y hy hfy
        have := (hk x hx y hy).2 this.symm
        omega
      · exact h
      · obtain ⟨y, hy, hgy⟩ := gs k (by have := gB x hx; omega)
        have h1 := mono y hy x hx (by omega)
        have := ih (f y) (by omega) y hy rfl
        omega
  refine ⟨fun x hx => (heq _ x hx rfl).symm, ?_⟩
  rcases lt_trichotomy A B with h | h | h
  · obtain ⟨x, hx, e⟩ := gs A h
    have := fA x hx
    have := heq _ x hx rfl
    omega
  · exact h
  · obtain ⟨x, hx, e⟩ := fs B h
    have := gB x hx
    have := heq _ x hx rfl
    omega

theorem linearize_ord {c : List (ℕ × ℕ × ℕ)} {L : List ℕ} {p : List (ℕ × ℕ)} (h : linearize L c = .ok p) : ∀ e ∈ p, e.1 ≤ e.2 := by
  induction c generalizing L p with
  | nil =>
    simp only [linearize, Except.ok.injEq] at h
    subst h
    intro e he; cases he
  | cons t c ih =>
    obtain ⟨x, y, z⟩ := t
    unfold linearize at h
    dsimp only at h
    revert h
    rcases popPair L (min (bisectLeft L x) (bisectLeft L y)) (max (bisectLeft L x) (bisectLeft L y)) with _ | ⟨a, b, rest⟩
    · intro h; simp at h
    · dsimp only
      rcases hr : linearize (rest ++ [z]) c with e | q
      · intro h; simp at h
      · intro h
        simp only [Except.ok.injEq] at h
        subst h
        intro e he
        rcases List.mem_cons.1 he with rfl | he
        · exact min_le_max
        · exact ih hr e he

theorem mapM_except_mem {α β ε : Type} {f : α → Except ε β} {l : List α} {m : List β} (h : l.mapM f = .ok m) :
    ∀ b ∈ m, ∃ a ∈ l, f a = .ok b := by
  induction l generalizing m with
  | nil =>
    rw [List.mapM_nil] at h
    cases h
    intro b hb; cases hb
  | cons a l ih =>
    rw [List.mapM_cons] at h
    revert h
    rcases hf : f a with e | b'
    · intro h; cases h
    · rcases hl : l.mapM f with e | m'
      · intro h; cases h
      · intro h
        cases h
        intro b hb
        rcases List.mem_cons.1 hb with rfl | hb
        · exact ⟨a, by simp, hf⟩
        · obtain ⟨a', ha', e⟩ := ih hl b hb
          exact ⟨a', by simp [ha'], e⟩

theorem valid_ne {ts : List Term} {p : List (ℕ × ℕ)} {F : List Term} (h : replay ts p = some F) : ∀ e ∈ p, e.1 ≠ e.2 := by
  induction p generalizing ts with
  | nil => intro e he; cases he
  | cons t p ih =>
    obtain ⟨x, y⟩ := t
    unfold replay at h
    by_cases hxy : x = y
    · rw [if_pos hxy] at h; simp at h
    · rw [if_neg hxy] at h
      intro e he
      revert h
      rcases ts[min x y]? with _ | a
      · intro h; simp at h
      · rcases ts[max x y]? with _ | b
        · intro h; simp at h
        · intro h
          rcases List.mem_cons.1 he with rfl | he
          · exact hxy
          · exact ih h e he

/-- C80: the lists of paths which the random generator of contraction paths can return are exactly those with one
path for each connected component, in the order of the components, which contract tensors that share an index until
no two tensors share one. No such list is out of reach of the random numbers. -/
theorem C80_drawn (enum : Finset ℕ → List ℕ) (he : EnumOk enum) (tsInds : List (List ι)) (paths : List (List (ℕ × ℕ))) :
    (∃ (σ : Type) (g : PyRng σ) (s : σ), g.Ok ∧ ∀ fuel, tsInds.length + (uniqueEverseen tsInds.flatten).length < fuel →
      randomPaths g enum fuel s tsInds = some (.ok paths)) ↔ DrawnPaths tsInds paths := by
  constructor
  · rintro ⟨σ, g, s, hg, h⟩
    obtain ⟨paths', h1, h2, -, h4, h5, comp⟩ := C27_paths g hg enum he s tsInds
    have e := h1 _ (Nat.lt_succ_self _)
    have e' := h _ (Nat.lt_succ_self _)
    rw [e', Option.some.injEq, Except.ok.injEq] at e
    subst e
    refine ⟨h2, ?_, h4, h5, comp⟩
    unfold randomPaths at e'
    dsimp only at e'
    revert e'
    rcases rcAll g _ s _ _ with _ | (e | ⟨s', lps⟩)
    · intro e'; simp at e'
    · intro e'; simp at e'
    · intro e' p hp e hep
      simp only [Option.some.injEq] at e'
      obtain ⟨lp, -, hlp⟩ := mapM_except_mem e' p hp
      obtain ⟨F, hF⟩ := h2 p hp
      exact lt_of_le_of_ne (linearize_ord hlp e hep) (valid_ne hF e hep)
  · rintro ⟨hv, ho, hs, hj, comp, k1, k2, k3, k4, k5⟩
    set ts := remapInds tsInds with hts
    have hlen : ts.length = tsInds.length := by simp [hts, remapInds]
    set m := (uniqueEverseen tsInds.flatten).length with hm
    set col := colorInds enum id (fun x => {x}) ts with hcol
    obtain ⟨hc1, hc2⟩ := colorInds_init he ts
    rw [← hcol] at hc1 hc2
    set cs := uniqueEverseen ((List.range m).map col) with hcs
    have hmem : ∀ t x, x ∈ lab ts t → x < m := by
      intro t x hx
      obtain ⟨y, hy, rfl⟩ := mem_lab_remap.1 hx
      exact indexNo_lt hy.mem
    have labmem : ∀ t x, x ∈ lab ts t → lab ts t ∈ ts := by
      intro t x hx
      have := lt_of_mem_lab hx
      unfold lab
      rw [List.getD_eq_getElem _ _ this]
      exact List.getElem_mem _
    have hP : Pending ts col cs (initR ts) := by
      refine ⟨le_refl _, fun _ _ => rfl, ?_, ?_, fun _ _ => rfl, fun _ _ => rfl⟩
      · intro t x y hx hy
        exact hc1 _ (labmem t x hx) x hx y hy
      · intro t x ht hx
        have := lt_of_mem_lab hx
        have e : (initR ts).ts = ts := rfl
        rw [e] at this
        omega
    have hcolmem : ∀ x ∈ tsInds.flatten, col (indexNo tsInds x) ∈ cs := fun x hx =>
      mem_uniqueEverseen.2 (List.mem_map.2 ⟨_, List.mem_range.2 (indexNo_lt hx), rfl⟩)
    have hflat : ∀ a < m, ∃ x ∈ tsInds.flatten, indexNo tsInds x = a := by
      intro a ha
      refine ⟨(uniqueEverseen tsInds.flatten)[a], mem_uniqueEverseen.1 (List.getElem_mem _), ?_⟩
      exact (uniqueEverseen_nodup _).idxOf_getElem a ha
    -- the components, as numbered by the code
    set code : ι → ℕ := fun x => cs.idxOf (col (indexNo tsInds x)) with hcode
    have g1 : ∀ x ∈ tsInds.flatten, code x < cs.length := fun x hx => List.idxOf_lt_length_of_mem (hcolmem x hx)
    have g2 : ∀ x ∈ tsInds.flatten, ∀ y ∈ tsInds.flatten, code x = code y ↔ ConnInds tsInds x y := by
      intro x hx y hy
      constructor
      · intro h
        have hcc : col (indexNo tsInds x) = col (indexNo tsInds y) := by
          by_contra hne
          exact idxOf_ne (hcolmem x hx) (hcolmem y hy) hne h
        rcases conn_of_sameTensor (hc2 _ _ hcc) with h1 | ⟨x', y', h1, h2, h3, h4, h5⟩
        · rw [indexNo_inj hx hy h1]; exact .refl _
        · rw [← indexNo_inj h1 hx h3, ← indexNo_inj h2 hy h4]; exact h5
      · intro h
        have : col (indexNo tsInds x) = col (indexNo tsInds y) := by
          clear hx hy
          induction h with
          | rel x y hxy =>
            obtain ⟨xs, hxs, h1, h2⟩ := hxy
            refine hc1 _ (List.mem_map.2 ⟨xs, hxs, rfl⟩) _ ?_ _ ?_
            · exact List.mem_toFinset.2 (List.mem_map.2 ⟨x, h1, rfl⟩)
            · exact List.mem_toFinset.2 (List.mem_map.2 ⟨y, h2, rfl⟩)
          | refl x => rfl
          | symm x y _ ih => exact ih.symm
          | trans x y z _ _ ih1 ih2 => exact ih1.trans ih2
        simp only [hcode, this]
    have g3 : ∀ k < cs.length, ∃ x ∈ tsInds.flatten, code x = k := by
      intro k hk
      obtain ⟨a, ha, hac⟩ := List.mem_map.1 (mem_uniqueEverseen.1 (List.getElem_mem hk))
      obtain ⟨x, hx, rfl⟩ := hflat a (List.mem_range.1 ha)
      refine ⟨x, hx, ?_⟩
      simp only [hcode, hac]
      exact (uniqueEverseen_nodup _).idxOf_getElem k hk
    have g5 : ∀ x ∈ tsInds.flatten, ∀ y ∈ tsInds.flatten, code x < code y →
        ∃ x' ∈ tsInds.flatten, code x' = code x ∧ tsInds.flatten.idxOf x' < tsInds.flatten.idxOf y := by
      intro x hx y hy hlt
      simp only [hcode] at hlt ⊢
      rw [hcs, uniqueEverseen_idxOf (mem_uniqueEverseen.1 (hcolmem x hx)) (mem_uniqueEverseen.1 (hcolmem y hy))] at hlt
      have hi := List.idxOf_lt_length_of_mem (mem_uniqueEverseen.1 (hcolmem x hx))
      have hxc := List.getElem_idxOf hi
      rw [List.getElem_map, List.getElem_range] at hxc
      have hm' : ((List.range m).map col).idxOf (col (indexNo tsInds x)) < m := by simpa using hi
      obtain ⟨x', hx', e⟩ := hflat _ hm'
      have hle : ((List.range m).map col).idxOf (col (indexNo tsInds y)) ≤ indexNo tsInds y :=
        idxOf_le_of_getElem (by simpa using indexNo_lt hy) (by simp)
      refine ⟨x', hx', by rw [e, hxc], ?_⟩
      rw [← uniqueEverseen_idxOf hx' hy]
      show indexNo tsInds x' < indexNo tsInds y
      omega
    obtain ⟨hcc, hll⟩ := comp_unique k1 g1 k3 g3 (fun x hx y hy => (k2 x hx y hy).trans (g2 x hx y hy).symm) k5 g5
    have hcolk : ∀ x ∈ tsInds.flatten, ∀ k (hk : k < cs.length), comp x = k → col (indexNo tsInds x) = cs[k] := by
      rintro x hx k hk rfl
      have := List.getElem_idxOf (List.idxOf_lt_length_of_mem (hcolmem x hx))
      rw [← this]
      congr 1
      exact (hcc x hx).symm
    have hsame : ∀ i x y, Holds tsInds i x → Holds tsInds i y → comp x = comp y := by
      intro i x y hx hy
      refine (k2 x hx.mem y hy.mem).2 (.rel _ _ ⟨tsInds.getD i [], ?_, hx, hy⟩)
      have hi : i < tsInds.length := by
        by_contra hi
        unfold Holds at hx
        rw [List.getD_eq_default _ _ (by omega)] at hx
        simp at hx
      rw [List.getD_eq_getElem _ _ hi]
      exact List.getElem_mem _
    have hdraw : List.Forall₂ (fun c p => Drawable ts col c (initTerms ts.length) p) cs paths := by
      rw [List.forall₂_iff_get]
      refine ⟨hll.symm, fun k hk hk' => ?_⟩
      show Drawable ts col cs[k] (initTerms ts.length) paths[k]
      have hp : paths[k] ∈ paths := List.getElem_mem _
      obtain ⟨F, hF⟩ := hv _ hp
      have hF' : replay (initTerms tsInds.length) paths[k] = some F := hF
      rw [hlen]
      refine ⟨ho _ hp, ?_, F, hF, ?_⟩
      · intro t ht
        obtain ⟨a, b, rfl, x, ⟨i, hi, hxi⟩, j, hj', hxj⟩ := hs _ hp t ht
        obtain ⟨y, hy, hyk⟩ := k4 k hk' i ⟨_, ht, by simp [Term.tensors, hi]⟩
        have hxk : comp x = k := (hsame i x y hxi hy).trans hyk
        exact ⟨a, b, indexNo tsInds x, rfl, hcolk x hxi.mem k hk hxk, ⟨i, hi, (mem_lab_remap' hxi.mem).2 hxi⟩,
          j, hj', (mem_lab_remap' hxj.mem).2 hxj⟩
      · refine (replay_nodup hF').imp_of_mem fun {u v} hu hv' huv a hac hua hva => huv ?_
        obtain ⟨i, hi, hxi⟩ := hua
        obtain ⟨j, hj', hxj⟩ := hva
        obtain ⟨x, hx, rfl⟩ := mem_lab_remap.1 hxi
        have hxj' := (mem_lab_remap' hx.mem).1 hxj
        by_cases hij : i = j
        · subst hij
          exact replay_disjoint hF' hu hv' hi hj'
        obtain ⟨p, hp', t, ht, ti, tj⟩ := hj i j x hij hx hxj'
        obtain ⟨k', hk'', rfl⟩ := List.getElem_of_mem hp'
        obtain ⟨y, hy, hyk⟩ := k4 k' hk'' i ⟨t, ht, ti⟩
        have hxk : comp x = k' := (hsame i x y hx hy).trans hyk
        have hck := hcolk x hx.mem k' (by omega) hxk
        rw [hac] at hck
        have hn : cs.Nodup := uniqueEverseen_nodup _
        have hkk : k = k' := (hn.getElem_inj_iff).1 hck
        subst hkk
        obtain ⟨w, hw, hsub⟩ := trace_sub hF' (Or.inr ht)
        rw [← replay_disjoint hF' hw hu (hsub.tensors ti) hi, ← replay_disjoint hF' hw hv' (hsub.tensors tj) hj']
    obtain ⟨script, lps, r1, r2, r3⟩ := rcAll_draw hmem cs (uniqueEverseen_nodup _) (initR ts) hP paths hdraw
    refine ⟨_, scripted, script ++ [], scripted_ok, fun fuel hf => ?_⟩
    unfold randomPaths groupInds
    simp only [← hts, ← hm, ← hcol, ← hcs]
    rw [r1 [] fuel (by omega)]
    simp only
    rw [mapM_except_ok (g := lin (List.range ts.length)), r2]
    intro p hp
    obtain ⟨i, hi, rfl⟩ := List.getElem_of_mem hp
    have hl := r3.length_eq
    exact ((List.forall₂_iff_get.1 r3).2 i (by omega) hi).linear.1

theorem mem_or_traced {p : List (ℕ × ℕ)} {ts F : List Term} (h : replay ts p = some F) : ∀ u ∈ F, u ∈ ts ∨ u ∈ trace ts p := by
  induction p generalizing ts with
  | nil =>
    simp only [replay, Option.some.injEq] at h
    subst h
    exact fun u hu => Or.inl hu
  | cons e p ih =>
    obtain ⟨x, y⟩ := e
    unfold replay at h
    by_cases hxy : x = y
    · rw [if_pos hxy] at h; simp at h
    · rw [if_neg hxy] at h
      intro u hu
      rw [trace]
      revert h
      rcases ts[min x y]? with _ | a
      · intro h; simp at h
      · rcases ts[max x y]? with _ | b
        · intro h; simp at h
        · intro h
          rcases ih h u hu with h' | h'
          · rcases List.mem_append.1 h' with h' | h'
            · exact Or.inl (List.mem_of_mem_eraseIdx (List.mem_of_mem_eraseIdx h'))
            · right
              simp only [List.mem_singleton] at h'
              simp [h']
          · right
            simp [h']

/-- C80: in a connected network any contraction of the whole network to a single tensor can be drawn, provided that
each of its steps contracts two tensors that share an index. -/
theorem C80_connected (enum : Finset ℕ → List ℕ) (he : EnumOk enum) (tsInds : List (List ι)) (h0 : tsInds ≠ [])
    (hi : ∀ i < tsInds.length, ∃ x, Holds tsInds i x)
    (hc : ∀ x ∈ tsInds.flatten, ∀ y ∈ tsInds.flatten, ConnInds tsInds x y) (p : List (ℕ × ℕ)) (u : Term)
    (hp : replay (initTerms tsInds.length) p = some [u]) (ho : ∀ e ∈ p, e.1 < e.2)
    (hs : ∀ t ∈ trace (initTerms tsInds.length) p, ∃ a b, t = .pair a b ∧ Share tsInds a b) :
    ∃ (σ : Type) (g : PyRng σ) (s : σ), g.Ok ∧ ∀ fuel, tsInds.length + (uniqueEverseen tsInds.flatten).length < fuel →
      randomPaths g enum fuel s tsInds = some (.ok [p]) := by
  have hlt : ∀ i x, Holds tsInds i x → i < tsInds.length := by
    intro i x h
    by_contra hi'
    unfold Holds at h
    rw [List.getD_eq_default _ _ (by omega)] at h
    simp at h
  have hu : ∀ i < tsInds.length, i ∈ u.tensors := by
    intro i hi'
    have := (replay_tensors_init hp).mem_iff (a := i)
    simpa [hi'] using this
  have hpos : 0 < tsInds.length := List.length_pos_iff.2 h0
  refine (C80_drawn enum he tsInds [p]).2 ⟨?_, ?_, ?_, ?_, fun _ => 0, ?_, ?_, ?_, ?_, ?_⟩
  · simpa using ⟨_, hp⟩
  · simpa using ho
  · simpa using hs
  · intro i j x hij hxi hxj
    refine ⟨p, by simp, u, ?_, hu i (hlt i x hxi), hu j (hlt j x hxj)⟩
    rcases mem_or_traced hp u (by simp) with h | h
    · obtain ⟨k, -, rfl⟩ := List.mem_map.1 h
      have h1 := hu i (hlt i x hxi)
      have h2 := hu j (hlt j x hxj)
      simp only [Term.tensors, List.mem_singleton] at h1 h2
      omega
    · exact h
  · intro x _; simp
  · exact fun x hx y hy => ⟨fun _ => hc x hx y hy, fun _ => rfl⟩
  · intro k hk
    obtain ⟨x, hx⟩ := hi 0 hpos
    exact ⟨x, hx.mem, by simp only [List.length_singleton] at hk; exact (Nat.lt_one_iff.1 hk).symm⟩
  · intro k hk i hti
    have hk0 : k = 0 := by simpa using hk
    subst hk0
    obtain ⟨v, hv, -, hiv⟩ := (touches_iff hp i).1 hti
    have hin : i ∈ List.range tsInds.length := by
      have := (replay_tensors_init hp).mem_iff (a := i)
      rw [← this]
      simp only [List.mem_singleton] at hv
      subst hv
      simpa using hiv
    obtain ⟨x, hx⟩ := hi i (List.mem_range.1 hin)
    exact ⟨x, hx, rfl⟩
  · intro x _ y _ h
    exact absurd h (lt_irrefl _)

/-- A network with a hyper-index (`1`), and a contraction of it which does not start at the first tensors. -/
example (enum : Finset ℕ → List ℕ) (he : EnumOk enum) : ∃ (σ : Type) (g : PyRng σ) (s : σ), g.Ok ∧ ∀ fuel, 3 + 4 < fuel →
    randomPaths g enum fuel s [[0, 1], [1, 2], [1, 2, 3]] = some (.ok [[(1, 2), (0, 1)]]) := by
  have hc0 : ∀ x ∈ [[0, 1], [1, 2], [1, 2, 3]].flatten, ConnInds [[0, 1], [1, 2], [1, 2, 3]] 1 x := by
    intro x hx
    obtain ⟨xs, hxs, h⟩ := List.mem_flatten.1 hx
    refine .rel _ _ ⟨xs, hxs, ?_, h⟩
    clear h
    revert hxs; revert xs; decide
  refine C80_connected enum he [[0, 1], [1, 2], [1, 2, 3]] (by decide) ?_
    (fun x hx y hy => .trans _ 1 _ (.symm _ _ (hc0 x hx)) (hc0 y hy)) [(1, 2), (0, 1)] _ rfl (by decide) ?_
  · intro i hi
    exact ⟨1, by unfold Holds; revert hi; revert i; decide⟩
  · intro t ht
    have e : trace (initTerms 3) [(1, 2), (0, 1)] =
      [.pair (.tensor 1) (.tensor 2), .pair (.tensor 0) (.pair (.tensor 1) (.tensor 2))] := rfl
    have ht' : t ∈ trace (initTerms 3) [(1, 2), (0, 1)] := ht
    rw [e] at ht'
    simp only [List.mem_cons, List.not_mem_nil, or_false] at ht'
    rcases ht' with rfl | rfl
    · exact ⟨_, _, rfl, 1, ⟨1, by decide, by unfold Holds; decide⟩, 2, by decide, by unfold Holds; decide⟩
    · exact ⟨_, _, rfl, 1, ⟨0, by decide, by unfold Holds; decide⟩, 2, by decide, by unfold Holds; decide⟩

end TNCO
