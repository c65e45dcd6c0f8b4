import Verif.Lemmas.RandomPathAll

/-! Random contraction paths: which paths can be drawn. -/

namespace TNCO
open Linear
variable {ι σ : Type} [DecidableEq ι]

/-- A generator that returns the given numbers, where they are allowed. -/
def scripted : PyRng (List (ℕ × ℕ)) where
  randrange n s := (if (s.headD (0, 0)).1 < n then (s.headD (0, 0)).1 else 0, s.tail)
  sample2 n s := (if (s.headD (0, 0)).1 < n ∧ (s.headD (0, 0)).2 < n ∧ (s.headD (0, 0)).1 ≠ (s.headD (0, 0)).2
    then s.headD (0, 0) else (0, 1), s.tail)

theorem scripted_ok : scripted.Ok where
  range n s h := by
    unfold scripted
    dsimp only
    split_ifs with h1
    · exact h1
    · exact h
  sample n s h := by
    unfold scripted
    dsimp only
    split_ifs with h1
    · exact h1
    · exact ⟨by omega, by omega, by omega⟩

theorem scripted_range {n a b : ℕ} (h : a < n) (s : List (ℕ × ℕ)) : scripted.randrange n ((a, b) :: s) = (a, s) :=
  Prod.ext (if_pos h) rfl

theorem scripted_sample {n a b : ℕ} (ha : a < n) (hb : b < n) (hab : a ≠ b) (s : List (ℕ × ℕ)) :
    scripted.sample2 n ((a, b) :: s) = ((a, b), s) :=
  Prod.ext (if_pos ⟨ha, hb, hab⟩) rfl

theorem RInv.avail_perm {ts0 col c st avail av con path L} (h : RInv ts0 col c st avail con path L) (hp : av.Perm avail) :
    RInv ts0 col c st av con path L :=
  { h with
    availc := fun x hx => h.availc x (hp.mem_iff.1 hx)
    popped := fun x hxc hx => h.popped x hxc fun hm => hx (hp.mem_iff.2 hm) }

/-- When no index is left to contract, the loop removes the remaining indices. -/
theorem rcLoop_drain {ts0 : List (Finset ℕ)} {col : ℕ → ℕ} {c : ℕ} (k : ℕ) (st : RState) (avail : List ℕ) (con : Finset ℕ)
    (path : List (ℕ × ℕ × ℕ)) (L : List ℕ) (h : RInv ts0 col c st avail con path L) (hk : avail.length = k)
    (hnone : ∀ x, col x = c → st.hc x = none) (rest : List (ℕ × ℕ)) (fuel : ℕ) (hf : k < fuel) :
    rcLoop scripted fuel (List.replicate k (0, 0) ++ rest) st avail con path = some (.ok (rest, st, path)) ∧
      RInv ts0 col c st [] con path L := by
  induction k generalizing avail fuel with
  | zero =>
    have : avail = [] := List.length_eq_zero_iff.1 hk
    subst this
    obtain ⟨f, rfl⟩ := Nat.exists_eq_succ_of_ne_zero (by omega : fuel ≠ 0)
    exact ⟨by simp [rcLoop], h⟩
  | succ k ih =>
    have ha : avail ≠ [] := fun e => by rw [e] at hk; simp at hk
    have hpos : 0 < avail.length := by omega
    obtain ⟨hp, hl, hlast⟩ := swapLast_spec hpos
    have hmi : (swapLast avail 0).getD ((swapLast avail 0).length - 1) 0 ∈ avail := by
      rw [hlast]; exact List.getElem_mem _
    have h' : RInv ts0 col c st (swapLast avail 0).dropLast con path L :=
      { h with
        availc := fun x hx => h.availc x (hp.mem_iff.1 (List.mem_of_mem_dropLast hx))
        popped := fun x hxc _ => hnone x hxc }
    obtain ⟨f, rfl⟩ := Nat.exists_eq_succ_of_ne_zero (by omega : fuel ≠ 0)
    obtain ⟨i1, i2⟩ := ih _ h' (by simp; omega) f (by omega)
    refine ⟨?_, i2⟩
    rw [List.replicate_succ, List.cons_append]
    unfold rcLoop
    rw [if_neg ha]
    simp only [scripted_range hpos]
    rw [if_pos (Or.inl (hnone _ (h.availc _ hmi)))]
    exact i1

/-- The contractions of a path over the terms `T` that the loop can draw. -/
structure Drawable (ts0 : List (Finset ℕ)) (col : ℕ → ℕ) (c : ℕ) (T : List Term) (p : List (ℕ × ℕ)) : Prop where
  ord : ∀ e ∈ p, e.1 < e.2
  share : ∀ t ∈ trace T p, ∃ a b x, t = .pair a b ∧ col x = c ∧ InTerm ts0 a x ∧ InTerm ts0 b x
  done : ∃ F, replay T p = some F ∧ F.Pairwise fun u v => ∀ x, col x = c → InTerm ts0 u x → ¬ InTerm ts0 v x

theorem rcLoop_draw {ts0 : List (Finset ℕ)} {col : ℕ → ℕ} {c : ℕ} (p : List (ℕ × ℕ)) (st : RState) (avail : List ℕ)
    (con : Finset ℕ) (path : List (ℕ × ℕ × ℕ)) (L : List ℕ) (h : RInv ts0 col c st avail con path L)
    (hd : Drawable ts0 col c (L.map (vals .tensor path)) p) :
    ∃ script st' con' lp L', (∀ rest fuel, p.length + avail.length < fuel →
        rcLoop scripted fuel (script ++ rest) st avail con path = some (.ok (rest, st', path ++ lp))) ∧
      RInv ts0 col c st' [] con' (path ++ lp) L' ∧ Frame col c st st' ∧ lin L lp = p := by
  induction p generalizing st avail con path L with
  | nil =>
    obtain ⟨F, hF, hpw⟩ := hd.done
    simp only [replay, Option.some.injEq] at hF
    subst hF
    rw [List.pairwise_map] at hpw
    have hnone : ∀ x, col x = c → st.hc x = none := by
      intro x hx
      rw [h.hc x hx, if_neg]
      intro h2
      rw [countP_eq_filter_length] at h2
      obtain ⟨a, b, l, e⟩ : ∃ a b l, L.filter (fun t => x ∈ lab st.ts t) = a :: b :: l := by
        revert h2
        rcases L.filter (fun t => x ∈ lab st.ts t) with _ | ⟨a, _ | ⟨b, l⟩⟩
        · intro h2; simp at h2
        · intro h2; simp at h2
        · intro _; exact ⟨a, b, l, rfl⟩
      have hs : [a, b].Sublist L := (List.Sublist.cons_cons a (List.Sublist.cons_cons b (List.nil_sublist l))).trans
        (e ▸ List.filter_sublist)
      have hab := hpw.sublist hs
      simp only [List.pairwise_cons, List.mem_singleton, forall_eq] at hab
      have ma : a ∈ L.filter fun t => x ∈ lab st.ts t := by rw [e]; simp
      have mb : b ∈ L.filter fun t => x ∈ lab st.ts t := by rw [e]; simp
      rw [List.mem_filter, decide_eq_true_eq] at ma mb
      exact hab.1 x hx (h.leaf a ma.1 x ma.2 hx) (h.leaf b mb.1 x mb.2 hx)
    have hdr := fun rest fuel hf => rcLoop_drain avail.length st avail con path L h rfl hnone rest fuel hf
    refine ⟨List.replicate avail.length (0, 0), st, con, [], L, ?_, ?_, Frame.refl _ _ _, rfl⟩
    · intro rest fuel hf
      rw [List.append_nil]
      exact (hdr rest fuel (by simpa using hf)).1
    · rw [List.append_nil]
      exact (hdr [] _ (Nat.lt_succ_self _)).2
  | cons e p ih =>
    obtain ⟨x, y⟩ := e
    have hxy : x < y := hd.ord (x, y) (by simp)
    obtain ⟨F, hF, hpw⟩ := hd.done
    have nL := h.nodup
    have hzL : st.ts.length ∉ L := fun hm => lt_irrefl _ (h.lt _ hm)
    -- the operands
    have hF0 := hF
    unfold replay at hF
    rw [if_neg (Nat.ne_of_lt hxy), min_eq_left hxy.le, max_eq_right hxy.le] at hF
    have hy : y < L.length := by
      by_contra hy
      have e : (L.map (vals Term.tensor path))[y]? = none := List.getElem?_eq_none (by simpa using hy)
      rw [e] at hF
      revert hF
      rcases (L.map (vals Term.tensor path))[x]? with _ | _ <;> simp
    have hx : x < L.length := by omega
    have mx : L[x] ∈ L := List.getElem_mem _
    have my : L[y] ∈ L := List.getElem_mem _
    have ix : L.idxOf L[x] = x := nL.idxOf_getElem x hx
    have iy : L.idxOf L[y] = y := nL.idxOf_getElem y hy
    have hne : L[x] ≠ L[y] := fun e => by have := nL.getElem_inj_iff.1 e; omega
    set tx := L[x] with htx
    set ty := L[y] with hty
    have ex : (L.map (vals Term.tensor path))[x]? = some (vals .tensor path tx) := by simp [htx, hx]
    have ey : (L.map (vals Term.tensor path))[y]? = some (vals .tensor path ty) := by simp [hty, hy]
    have hT : ((L.map (vals Term.tensor path)).eraseIdx y).eraseIdx x ++ [.pair (vals .tensor path tx) (vals .tensor path ty)] =
        (stepL L tx ty st.ts.length).map (vals .tensor (path ++ [(tx, ty, st.ts.length)])) := by
      have e := eraseIdx_pair nL mx my hne
      rw [ix, iy, min_eq_left hxy.le, max_eq_right hxy.le] at e
      rw [vals_append]
      unfold stepL
      rw [List.map_append, List.map_singleton]
      simp only [vals, Function.update_self]
      rw [List.eraseIdx_map, List.eraseIdx_map, e]
      congr 1
      refine List.map_congr_left fun w hw => (Function.update_of_ne ?_ _ _).symm
      rintro rfl
      exact hzL (List.mem_of_mem_erase (List.mem_of_mem_erase hw))
    rw [ex, ey] at hF
    dsimp only at hF
    rw [hT] at hF
    have htr : trace (L.map (vals Term.tensor path)) ((x, y) :: p) =
        .pair (vals .tensor path tx) (vals .tensor path ty) ::
          trace ((stepL L tx ty st.ts.length).map (vals .tensor (path ++ [(tx, ty, st.ts.length)]))) p := by
      rw [trace, min_eq_left hxy.le, max_eq_right hxy.le, ex, ey]
      dsimp only
      rw [hT]
    obtain ⟨a, b, x0, hab, hc0, sa, sb⟩ := hd.share (.pair (vals .tensor path tx) (vals .tensor path ty)) (by rw [htr]; simp)
    simp only [Term.pair.injEq] at hab
    obtain ⟨rfl, rfl⟩ := hab
    have lx : x0 ∈ lab st.ts tx := (h.closed tx mx x0 hc0 sa).resolve_right fun hh => hh ty my hne.symm sb
    have ly : x0 ∈ lab st.ts ty := (h.closed ty my x0 hc0 sb).resolve_right fun hh => hh tx mx hne sa
    have h2 : 2 ≤ cnt st.ts L x0 := by
      unfold cnt
      rw [(perm_erase2 mx my hne).countP_eq, List.countP_cons_of_pos (by simpa using lx),
        List.countP_cons_of_pos (by simpa using ly)]
      omega
    have hhc : st.hc x0 ≠ none := by rw [h.hc x0 hc0, if_pos h2]; simp
    have hav : x0 ∈ avail := by
      by_contra hm
      exact hhc (h.popped x0 hc0 hm)
    have hi := List.idxOf_lt_length_of_mem hav
    obtain ⟨hp, hl, hlast⟩ := swapLast_spec hi
    rw [List.getElem_idxOf] at hlast
    have hAv := h.avail_perm hp
    -- the candidates
    set cand := (st.i2t x0).filter (· ∉ con) with hcd
    have hmc : ∀ t ∈ L, x0 ∈ lab st.ts t → t ∈ cand := by
      intro t ht hl'
      have hi2 := (h.i2t x0 hc0 t).2 hl'
      rw [hcd, List.mem_filter, decide_eq_true_eq, h.dead x0 hc0 t hi2, not_not]
      exact ⟨hi2, ht⟩
    have cx := hmc tx mx lx
    have cy := hmc ty my ly
    have q1 := List.idxOf_lt_length_of_mem cx
    have q2 := List.idxOf_lt_length_of_mem cy
    have q3 := idxOf_ne cx cy hne
    have hlen2 : 2 ≤ cand.length := by omega
    have hskip : ¬ (st.hc x0 = none ∨ (st.i2t x0).length ≤ 1) := by
      rintro (h' | h')
      · exact hhc h'
      · have := List.length_filter_le (fun t => decide (t ∉ con)) (st.i2t x0)
        rw [← hcd] at this
        omega
    obtain ⟨k1, k2, k3⟩ := hAv.step mx my hne hc0 lx ly
    have hd' : Drawable ts0 col c ((stepL L tx ty st.ts.length).map (vals .tensor (path ++ [(tx, ty, st.ts.length)]))) p :=
      ⟨fun e he => hd.ord e (by simp [he]), fun t ht => hd.share t (by rw [htr]; simp [ht]), F, hF, hpw⟩
    obtain ⟨script, st', con', lp, L', i1, i2, i3, i4⟩ := ih _ _ _ _ _ k2 hd'
    refine ⟨(avail.idxOf x0, 0) :: (cand.idxOf tx, cand.idxOf ty) :: script, st', con', (tx, ty, st.ts.length) :: lp, L', ?_, ?_,
      k3.trans i3, ?_⟩
    · intro rest fuel hf
      simp only [List.length_cons] at hf
      obtain ⟨f, rfl⟩ := Nat.exists_eq_succ_of_ne_zero (by omega : fuel ≠ 0)
      have := i1 rest f (by rw [hl]; omega)
      rw [List.append_assoc, List.singleton_append] at this
      have ha : avail ≠ [] := List.ne_nil_of_mem hav
      unfold rcLoop
      rw [if_neg ha]
      simp only [List.cons_append, scripted_range hi, hlast]
      rw [if_neg hskip, ← hcd, if_neg (by omega)]
      simp only [scripted_sample q1 q2 q3]
      rw [List.getElem?_eq_getElem q1, List.getElem?_eq_getElem q2, List.getElem_idxOf, List.getElem_idxOf]
      simp only
      have e1 : st.ts[tx]? = some (lab st.ts tx) := by
        rw [List.getElem?_eq_getElem (h.lt _ mx), lab, List.getD_eq_getElem _ _ (h.lt _ mx)]
      have e2 : st.ts[ty]? = some (lab st.ts ty) := by
        rw [List.getElem?_eq_getElem (h.lt _ my), lab, List.getD_eq_getElem _ _ (h.lt _ my)]
      rw [e1, e2]
      simp only
      rw [if_neg (by intro e; have : x0 ∈ (∅ : Finset ℕ) := e ▸ Finset.mem_inter.2 ⟨lx, ly⟩; simp at this),
        if_neg (by rintro ⟨x, hx, hn⟩; exact k1 x hx hn)]
      exact this
    · rw [List.append_assoc, List.singleton_append] at i2
      exact i2
    · rw [lin, ix, iy, min_eq_left hxy.le, max_eq_right hxy.le, i4]

theorem rcAll_draw {ts0 : List (Finset ℕ)} {col : ℕ → ℕ} {m : ℕ} (hm : ∀ t x, x ∈ lab ts0 t → x < m) (cs : List ℕ) (hcs : cs.Nodup)
    (st : RState) (h : Pending ts0 col cs st) (paths : List (List (ℕ × ℕ)))
    (hd : List.Forall₂ (fun c p => Drawable ts0 col c (initTerms ts0.length) p) cs paths) :
    ∃ script lps, (∀ rest fuel, ts0.length + m < fuel → rcAll scripted fuel (script ++ rest) st
        (cs.map fun c => (List.range m).filter fun x => col x = c) = some (.ok (rest, lps))) ∧
      lps.map (lin (List.range ts0.length)) = paths ∧ List.Forall₂ (PathOk ts0 col) cs lps := by
  induction cs generalizing st paths with
  | nil =>
    cases hd
    exact ⟨[], [], fun _ _ _ => rfl, rfl, .nil⟩
  | cons c cs ih =>
    obtain ⟨-, -, -⟩ := hd
    rename_i p paths hd hds
    have hI := h.start hm
    obtain ⟨hc1, hc2⟩ := List.nodup_cons.1 hcs
    obtain ⟨sc, st1, con, lp, L, r1, r2, r3, r4⟩ := rcLoop_draw p st _ _ _ _ hI hd
    rw [List.nil_append] at r2
    have hlen : p.length + ((List.range m).filter fun x => col x = c).length ≤ ts0.length + m := by
      have h1 := List.length_filter_le (fun x => decide (col x = c)) (List.range m)
      obtain ⟨F, hF, -⟩ := hd.done
      have h2 := replay_length hF
      simp only [List.length_range, initTerms, List.length_map] at h1 h2 ⊢
      omega
    have hP : Pending ts0 col cs st1 := by
      refine ⟨h.len.trans r3.len, r2.pre, r2.mono, ?_, ?_, ?_⟩
      · intro t x ht hx hxc
        by_cases h1 : st.ts.length ≤ t
        · exact hc1 (r3.new t x h1 hx ▸ hxc)
        · rw [r3.pre t (by omega)] at hx
          exact h.new t x ht hx (by simp [hxc])
      · intro x hx
        rw [r3.i2t x (fun e => hc1 (e ▸ hx)), h.i2t x (by simp [hx])]
      · intro x hx
        rw [r3.hc x (fun e => hc1 (e ▸ hx)), h.hc x (by simp [hx])]
    obtain ⟨script, lps, q1, q2, q3⟩ := ih hc2 st1 hP paths hds
    refine ⟨sc ++ script, lp :: lps, ?_, ?_, .cons r2.pathOk q3⟩
    · intro rest fuel hf
      rw [List.map_cons, List.append_assoc]
      unfold rcAll
      rw [r1 (script ++ rest) fuel (by omega)]
      simp only [List.nil_append]
      rw [q1 rest fuel hf]
    · rw [List.map_cons, r4, q2]

end TNCO
