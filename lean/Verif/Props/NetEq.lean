import Verif.Lemmas.NetEq
import Verif.Props.TensorNetwork
import Verif.Lemmas.Contract

/-! # C70: equality of tensors and networks -/

namespace TNCO

section
variable {ι K T R : Type} [DecidableEq ι] [DecidableEq T] [LT R] [DecidableLT R] (dist : K → K → R) (atol : R)

omit [DecidableEq T] in
/-- C70: two tensors are equal exactly if they have the same indices and dimensions, and both have no array or both have arrays with close entries.
Their tags do not matter. -/
theorem C70_tensor (t u : FullTensor ι K T) (ht : t.Valid) (hu : u.Valid) :
    t.eq dist atol (.tensor u) = .ok true ↔ CloseTensors dist atol t u := by
  obtain ⟨ti, td, ta, tt⟩ := t
  obtain ⟨ui, ud, ua, ut⟩ := u
  have hts := ht.shape
  have hus := hu.shape
  have htp := ht.pos
  simp only at hts hus htp
  unfold CloseTensors
  cases ta with
  | none =>
    cases ua with
    | none => simp [FullTensor.eq]
    | some b => simp [FullTensor.eq]
  | some a =>
    cases ua with
    | none => simp [FullTensor.eq]
    | some b =>
      have ea := hts a rfl
      have eb := hus b rfl
      simp only [FullTensor.eq]
      by_cases hd : td = ud
      · obtain ⟨r, hr, hc⟩ := entriesClose_same dist atol (a := a) (b := b) (by rw [ea, eb, hd]) (by rw [ea]; exact htp)
        rw [hr]
        cases r with
        | true => simp [hd, hc.1 rfl]
        | false =>
          have : ¬ EntriesClose dist atol a b := fun h => by simpa using hc.2 h
          simp [this]
      · cases entriesClose dist atol a b with
        | error e => simp [hd]
        | ok r => cases r <;> simp [hd]

omit [DecidableEq T] in
/-- C70, errors: comparing tensors raises `ValueError` exactly if both have arrays whose shapes NumPy does not combine. -/
theorem C70_tensor_errors (t u : FullTensor ι K T) (e : PyErr) :
    t.eq dist atol (.tensor u) = .error e ↔ e = .valueError ∧ Clash t u := by
  obtain ⟨ti, td, ta, tt⟩ := t
  obtain ⟨ui, ud, ua, ut⟩ := u
  unfold Clash
  cases ta with
  | none => cases ua <;> simp [FullTensor.eq]
  | some a =>
    cases ua with
    | none => simp [FullTensor.eq]
    | some b =>
      have := entriesClose_error dist atol a b e
      simp only [FullTensor.eq, Option.some.injEq, exists_and_left, exists_eq_left']
      cases h : entriesClose dist atol a b with
      | error e' =>
        rw [h] at this
        exact this
      | ok r =>
        rw [h] at this
        cases r <;> simpa using this

omit [DecidableEq T] in
/-- C70: `==` of tensors is symmetric, also in its errors. -/
theorem C70_symm (hd : ∀ x y, dist x y = dist y x) (t u : FullTensor ι K T) : t.eq dist atol (.tensor u) = u.eq dist atol (.tensor t) := by
  obtain ⟨ti, td, ta, tt⟩ := t
  obtain ⟨ui, ud, ua, ut⟩ := u
  have h1 : (decide (ti = ui) && decide (td = ud)) = (decide (ui = ti) && decide (ud = td)) := by
    congr 1 <;> exact decide_eq_decide.2 eq_comm
  cases ta with
  | none =>
    cases ua with
    | none => simp only [FullTensor.eq, h1]
    | some b => rfl
  | some a =>
    cases ua with
    | none => rfl
    | some b => simp only [FullTensor.eq, entriesClose_comm dist hd atol a b, h1]

omit [DecidableEq T] in
/-- C70: every tensor is equal to itself. -/
theorem C70_refl (hd : ∀ x, dist x x < atol) (t : FullTensor ι K T) (ht : t.Valid) : t.eq dist atol (.tensor t) = .ok true := by
  rw [C70_tensor dist atol t t ht ht]
  refine ⟨rfl, rfl, ?_⟩
  cases h : t.array with
  | none => exact .inl ⟨rfl, rfl⟩
  | some a => exact .inr ⟨a, a, rfl, rfl, fun idx _ => hd _⟩

omit [DecidableEq T] in
theorem tensorsEq_true {ts us : List (FullTensor ι K T)} (ht : ∀ t ∈ ts, t.Valid) (hu : ∀ u ∈ us, u.Valid) :
    tensorsEq dist atol ts us = .ok true ↔ List.Forall₂ (CloseTensors dist atol) ts us := by
  induction ts generalizing us with
  | nil => cases us <;> simp [tensorsEq]
  | cons t ts ih =>
    cases us with
    | nil => simp [tensorsEq]
    | cons u us =>
      have h1 := C70_tensor dist atol t u (ht t (by simp)) (hu u (by simp))
      have h2 := ih (us := us) (fun t h => ht t (List.mem_cons_of_mem _ h)) fun u h => hu u (List.mem_cons_of_mem _ h)
      rw [List.forall₂_cons, ← h1, ← h2]
      simp only [tensorsEq]
      cases t.eq dist atol (.tensor u) with
      | error e => simp
      | ok r => cases r <;> simp

omit [DecidableEq T] in
theorem tensorsEq_error {ts us : List (FullTensor ι K T)} (e : PyErr) :
    tensorsEq dist atol ts us = .error e ↔ ∃ ts1 t ts2 us1 u us2, ts = ts1 ++ t :: ts2 ∧ us = us1 ++ u :: us2 ∧ e = .valueError ∧ Clash t u ∧
      List.Forall₂ (fun t u => t.eq dist atol (.tensor u) = .ok true) ts1 us1 := by
  induction ts generalizing us with
  | nil => cases us <;> simp [tensorsEq]
  | cons t ts ih =>
    cases us with
    | nil => simp [tensorsEq]
    | cons u us =>
      have h1 := C70_tensor_errors dist atol t u
      have key : (∃ ts1 t' ts2 us1 u' us2, t :: ts = ts1 ++ t' :: ts2 ∧ u :: us = us1 ++ u' :: us2 ∧ e = .valueError ∧ Clash t' u' ∧
          List.Forall₂ (fun t u => t.eq dist atol (.tensor u) = .ok true) ts1 us1) ↔
          (e = .valueError ∧ Clash t u) ∨ (t.eq dist atol (.tensor u) = .ok true ∧ ∃ ts1 t' ts2 us1 u' us2, ts = ts1 ++ t' :: ts2 ∧ us = us1 ++ u' :: us2 ∧
            e = .valueError ∧ Clash t' u' ∧ List.Forall₂ (fun t u => t.eq dist atol (.tensor u) = .ok true) ts1 us1) := by
        constructor
        · rintro ⟨ts1, t', ts2, us1, u', us2, e1, e2, he, hc, hf⟩
          cases hf with
          | nil =>
            simp only [List.nil_append, List.cons.injEq] at e1 e2
            obtain ⟨rfl, rfl⟩ := e1
            obtain ⟨rfl, rfl⟩ := e2
            exact .inl ⟨he, hc⟩
          | cons h hf =>
            simp only [List.cons_append, List.cons.injEq] at e1 e2
            obtain ⟨rfl, rfl⟩ := e1
            obtain ⟨rfl, rfl⟩ := e2
            exact .inr ⟨h, _, _, _, _, _, _, rfl, rfl, he, hc, hf⟩
        · rintro (⟨he, hc⟩ | ⟨h, ts1, t', ts2, us1, u', us2, rfl, rfl, he, hc, hf⟩)
          · exact ⟨[], t, ts, [], u, us, rfl, rfl, he, hc, .nil⟩
          · exact ⟨t :: ts1, t', ts2, u :: us1, u', us2, rfl, rfl, he, hc, .cons h hf⟩
      rw [key, ← ih, ← h1 e]
      simp only [tensorsEq]
      cases t.eq dist atol (.tensor u) with
      | error e' => simp
      | ok r => cases r <;> simp

/-- C70: two networks are equal exactly if their tensors are, one by one, and the output indices, sparse indices and tags are the same. -/
theorem C70_network (N M : FullNetwork ι K T) (hN : ∀ t ∈ N.tensors, t.Valid) (hM : ∀ t ∈ M.tensors, t.Valid) :
    N.eq dist atol (.network M) = .ok true ↔
      List.Forall₂ (CloseTensors dist atol) N.tensors M.tensors ∧ N.output = M.output ∧ N.sparse = M.sparse ∧ N.tags = M.tags := by
  rw [← tensorsEq_true dist atol hN hM]
  simp only [FullNetwork.eq]
  cases tensorsEq dist atol N.tensors M.tensors with
  | error e => simp
  | ok r => cases r <;> simp [and_assoc]

/-- C70, errors: comparing networks raises an exception exactly if the shapes of the arrays of the first two tensors that are not equal cannot be
combined. Without such tensors the result is a Boolean. -/
theorem C70_network_errors (N M : FullNetwork ι K T) (e : PyErr) :
    N.eq dist atol (.network M) = .error e ↔ ∃ ts1 t ts2 us1 u us2, N.tensors = ts1 ++ t :: ts2 ∧ M.tensors = us1 ++ u :: us2 ∧ e = .valueError ∧
      Clash t u ∧ List.Forall₂ (fun t u => t.eq dist atol (.tensor u) = .ok true) ts1 us1 := by
  rw [← tensorsEq_error dist atol e]
  simp only [FullNetwork.eq]
  cases tensorsEq dist atol N.tensors M.tensors with
  | error e => simp
  | ok r => cases r <;> simp

/-- C70: `==` of networks is symmetric, also in its errors. -/
theorem C70_network_symm (hd : ∀ x y, dist x y = dist y x) (N M : FullNetwork ι K T) :
    N.eq dist atol (.network M) = M.eq dist atol (.network N) := by
  have h : ∀ ts us : List (FullTensor ι K T), tensorsEq dist atol ts us = tensorsEq dist atol us ts := by
    intro ts
    induction ts with
    | nil => intro us; cases us <;> rfl
    | cons t ts ih =>
      intro us
      cases us with
      | nil => rfl
      | cons u us => simp only [tensorsEq, C70_symm dist atol hd t u, ih us]
  simp only [FullNetwork.eq, h N.tensors M.tensors, eq_comm (a := N.output), eq_comm (a := N.sparse), eq_comm (a := N.tags)]

/-- C70: every network is equal to itself. -/
theorem C70_network_refl (hd : ∀ x, dist x x < atol) (N : FullNetwork ι K T) (hN : ∀ t ∈ N.tensors, t.Valid) :
    N.eq dist atol (.network N) = .ok true := by
  rw [C70_network dist atol N N hN hN]
  refine ⟨?_, rfl, rfl, rfl⟩
  rw [List.forall₂_same]
  exact fun t ht => (C70_tensor dist atol t t (hN t ht) (hN t ht)).1 (C70_refl dist atol hd t (hN t ht))

/-- C70: a network is different from everything else. -/
theorem C70_network_other (N : FullNetwork ι K T) : N.eq dist atol .other = .ok false := rfl

end

section
variable {ι K T : Type} [DecidableEq ι] [DecidableEq T] [NormedField K]

/-- C70, values: if two networks are equal, all values differ by at most the number of terms in the sum, times the largest difference of two products of
`n` numbers, which differ by `atol` and of which the first are at most `M`. -/
theorem C70_value (atol : ℝ) (hat : 0 ≤ atol) (N N' : FullNetwork ι K T) (hN : ∀ t ∈ N.tensors, t.Valid) (hN' : ∀ t ∈ N'.tensors, t.Valid)
    (h : N.eq (fun x y => ‖x - y‖) atol (.network N') = .ok true) (d : ι → ℕ) (hd : ∀ t ∈ N.tensors, t.dims = t.inds.map d) (M : ℝ) (hM : 0 ≤ M)
    (hb : ∀ t ∈ N.tensors, ∀ a, t.array = some a → ∀ idx, List.Forall₂ (· < ·) idx a.shape → ‖a.get idx‖ ≤ M) (l : List ι) (f : ι → ℕ)
    (hf : ∀ t ∈ N.tensors, ∀ x ∈ t.inds, x ∉ l → f x < d x) :
    ‖einsum d l N.terms f - einsum d l N'.terms f‖ ≤ ((l.map d).prod : ℕ) * ((M + atol) ^ N.tensors.length - M ^ N.tensors.length) := by
  obtain ⟨hF, -⟩ := (C70_network _ atol N N' hN hN').1 h
  unfold einsum
  refine sumOver_close fun g h1 h2 => ?_
  have hg : ∀ t ∈ N.tensors, ∀ x ∈ t.inds, g x < d x := by
    intro t ht x hx
    by_cases hxl : x ∈ l
    · exact h2 x hxl
    · rw [h1 x hxl]
      exact hf t ht x hx hxl
  have hl : N.tensors.length = (N.terms.map fun T => T g).length := by simp [FullNetwork.terms]
  rw [hl]
  refine (prod_close hat hM ?_).1
  unfold FullNetwork.terms
  rw [List.map_map, List.map_map, List.forall₂_map_left_iff, List.forall₂_map_right_iff]
  clear h hl hN'
  revert hb hd hg hf hN
  generalize N.tensors = ts at hF ⊢
  generalize N'.tensors = us at hF ⊢
  induction hF with
  | nil => intros; exact .nil
  | @cons t u ts us htu _ ih =>
    intro hN hd hb hf hg
    refine .cons ?_ (ih (fun t h => hN t (List.mem_cons_of_mem _ h)) (fun t h => hd t (List.mem_cons_of_mem _ h))
      (fun t h => hb t (List.mem_cons_of_mem _ h)) (fun t h => hf t (List.mem_cons_of_mem _ h)) fun t h => hg t (List.mem_cons_of_mem _ h))
    obtain ⟨e1, e2, h3⟩ := htu
    rcases h3 with ⟨ha, hb'⟩ | ⟨a, b, ha, hb', hc⟩
    · simp [ha, hb', hM, hat]
    · have hs : a.shape = t.inds.map d := by rw [(hN t (by simp)).shape a ha, hd t (by simp)]
      have hi : List.Forall₂ (· < ·) (t.inds.map g) a.shape := by
        rw [hs, List.forall₂_map_left_iff, List.forall₂_map_right_iff, List.forall₂_same]
        exact fun x hx => hg t (by simp) x hx
      simp only [Function.comp, ha, hb', ← e1]
      exact ⟨hb t (by simp) a ha _ hi, (hc _ hi).le⟩

end

/-- `abs(x - y)` of rationals -/
def ratDist (x y : ℚ) : ℚ := |x - y|

/-- A vector `j`, without tags. -/
def vecTensor (d : ℕ) (x : ℚ) : FullTensor ℕ ℚ ℕ := ⟨[0], [d], some ⟨[d], fun _ => x⟩, 0⟩

/-- A network of one vector that is also the output. -/
def vecNetwork (d : ℕ) (x : ℚ) : FullNetwork ℕ ℚ ℕ := ⟨[vecTensor d x], {0}, ∅, 0⟩

theorem vecTensor_valid (d : ℕ) (x : ℚ) (hd : 0 < d) : (vecTensor d x).Valid where
  length := rfl
  pos := by
    intro k hk
    simp only [vecTensor, List.mem_singleton] at hk
    omega
  shape := by
    intro a ha
    simp only [vecTensor, Option.some.injEq] at ha
    subst ha
    rfl

theorem ok_of_eval {e : Except PyErr Bool} {b : Bool} (h : e.toOption = some b) : e = .ok b := by
  cases e with
  | error e => simp [Except.toOption] at h
  | ok r => simpa [Except.toOption] using h

/-- C70, violated: `==` of two valid tensors raises `ValueError`, instead of `False`, if their arrays have 2 and 3 entries; so does `==` of networks. -/
theorem C70_violated_shapes : (vecTensor 2 0).Valid ∧ (vecTensor 3 0).Valid ∧
    (vecTensor 2 0).eq ratDist (1 / 100000) (.tensor (vecTensor 3 0)) = .error .valueError ∧
    (vecNetwork 2 0).eq ratDist (1 / 100000) (.network (vecNetwork 3 0)) = .error .valueError :=
  ⟨vecTensor_valid 2 0 (by decide), vecTensor_valid 3 0 (by decide), rfl, rfl⟩

/-- C70, violated: a tensor compared with anything else raises `AttributeError`, instead of `False`. -/
theorem C70_violated_other {ι K T R : Type} [DecidableEq ι] [LT R] [DecidableLT R] (dist : K → K → R) (atol : R) (t : FullTensor ι K T) :
    t.eq dist atol .other = .error .attributeError := rfl

/-- C70, violated: `==` is not transitive, of tensors and of networks. -/
theorem C70_violated_trans : ∃ t u v : FullTensor ℕ ℚ ℕ, t.Valid ∧ u.Valid ∧ v.Valid ∧ t.eq ratDist (1 / 100000) (.tensor u) = .ok true ∧
    u.eq ratDist (1 / 100000) (.tensor v) = .ok true ∧ t.eq ratDist (1 / 100000) (.tensor v) = .ok false :=
  ⟨vecTensor 2 0, vecTensor 2 (1 / 150000), vecTensor 2 (1 / 75000), vecTensor_valid 2 _ (by decide), vecTensor_valid 2 _ (by decide),
    vecTensor_valid 2 _ (by decide), ok_of_eval (by decide +kernel), ok_of_eval (by decide +kernel), ok_of_eval (by decide +kernel)⟩

/-- C70: the same tensors in another order are another network. -/
theorem C70_order : ∃ t u : FullTensor ℕ ℚ ℕ, t.Valid ∧ u.Valid ∧
    (FullNetwork.mk [t, u] {0} ∅ 0).eq ratDist (1 / 100000) (.network ⟨[u, t], {0}, ∅, 0⟩) = .ok false :=
  ⟨vecTensor 2 0, vecTensor 2 1, vecTensor_valid 2 _ (by decide), vecTensor_valid 2 _ (by decide), ok_of_eval (by decide +kernel)⟩

/-! Concrete cases: two tensors with entries that differ by 1/200000 and other tags; a network that is equal to another one, and the bound on their values. -/

example : (vecTensor 2 0).Valid ∧ (⟨[0], [2], some ⟨[2], fun _ => 1 / 200000⟩, 5⟩ : FullTensor ℕ ℚ ℕ).Valid ∧
    (vecTensor 2 0).eq ratDist (1 / 100000) (.tensor ⟨[0], [2], some ⟨[2], fun _ => 1 / 200000⟩, 5⟩) = .ok true :=
  ⟨vecTensor_valid 2 0 (by decide), ⟨rfl, by simp, by simp⟩, ok_of_eval (by decide +kernel)⟩

example : (vecNetwork 3 1).eq ratDist (1 / 100000) (.network (vecNetwork 3 (1 + 1 / 200000))) = .ok true ∧
    (vecNetwork 3 1).eq ratDist (1 / 100000) (.network (vecNetwork 3 2)) = .ok false ∧
    (vecNetwork 3 1).eq ratDist (1 / 100000) (.network ⟨[vecTensor 3 1], ∅, ∅, 0⟩) = .ok false :=
  ⟨ok_of_eval (by decide +kernel), ok_of_eval (by decide +kernel), ok_of_eval (by decide +kernel)⟩

/-- arrays whose shapes NumPy combines are different tensors, not an error -/
example : (vecTensor 3 0).eq ratDist (1 / 100000) (.tensor (vecTensor 1 0)) = .ok false := ok_of_eval (by decide +kernel)

/-- a real vector whose entries are `x` -/
noncomputable def realVec (x : ℝ) : FullNetwork ℕ ℝ ℕ := ⟨[⟨[0], [3], some ⟨[3], fun _ => x⟩, 0⟩], ∅, ∅, 0⟩

theorem realVec_valid (x : ℝ) : ∀ t ∈ (realVec x).tensors, t.Valid := by
  intro t ht
  simp only [realVec, List.mem_singleton] at ht
  subst ht
  exact ⟨rfl, by simp, by simp⟩

/-- the sum of three entries of size 1 that are known to 1/2 is known to 3/2 -/
example : ‖einsum (fun _ => 3) [0] (realVec 1).terms (fun _ => 0) - einsum (fun _ => 3) [0] (realVec (1 + 1 / 4)).terms (fun _ => 0)‖ ≤ 3 / 2 := by
  have h : (realVec 1).eq (fun x y => ‖x - y‖) (1 / 2 : ℝ) (.network (realVec (1 + 1 / 4))) = .ok true := by
    rw [C70_network _ _ _ _ (realVec_valid _) (realVec_valid _)]
    refine ⟨.cons ⟨rfl, rfl, .inr ⟨_, _, rfl, rfl, fun idx _ => ?_⟩⟩ .nil, rfl, rfl, rfl⟩
    simp only [NDArray.get]
    norm_num
  refine (C70_value (1 / 2) (by norm_num) _ _ (realVec_valid _) (realVec_valid _) h (fun _ => 3) ?_ 1 (by norm_num) ?_ [0] _ ?_).trans ?_
  · simp [realVec]
  · intro t ht a ha idx _
    simp only [realVec, List.mem_singleton] at ht
    subst ht
    simp only [Option.some.injEq] at ha
    subst ha
    simp [NDArray.get]
  · simp [realVec]
  · simp only [realVec, List.map_cons, List.map_nil, List.prod_cons, List.prod_nil, List.length_cons, List.length_nil]
    norm_num

end TNCO
