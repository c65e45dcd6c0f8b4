import Verif.Model.TensorNetwork
import Verif.Lemmas.Dict
import Mathlib.Data.Rat.Lemmas
import Mathlib.Data.List.Basic
import Mathlib.Data.List.Count
import Mathlib.Tactic.Linarith
import Mathlib.Algebra.Order.Ring.Rat

/-! # C45: the checks of `Tensor` and `TensorNetwork` -/

namespace TNCO

theorem posInt_eq (v : DimVal) (d : ℕ) : posInt v = some d ↔ 0 < d ∧ v = .num d := by
  cases v with
  | other => simp [posInt]
  | num q =>
    unfold posInt
    dsimp only
    constructor
    · intro h
      split at h
      · next hq =>
        simp only [Bool.and_eq_true, decide_eq_true_eq] at hq
        cases h
        have := Rat.eq_num_of_isInt hq.1
        refine ⟨by omega, ?_⟩
        have hn : ((q.num.toNat : ℕ) : ℤ) = q.num := by omega
        rw [DimVal.num.injEq]
        conv_lhs => rw [this]
        rw [← hn]; rfl
      · cases h
    · rintro ⟨h0, h⟩
      cases h
      have h1 : ((d : ℚ)).isInt = true := by simp [Rat.isInt]
      have h2 : (d : ℚ).num = d := Rat.num_natCast d
      rw [h1, h2, if_pos (by simp; omega)]
      simp

theorem mapM_posInt : ∀ (l : List DimVal) (ds : List ℕ), l.mapM posInt = some ds ↔ (∀ d ∈ ds, 0 < d) ∧ l = ds.map fun (d : ℕ) => .num d
  | [], ds => by
    constructor
    · intro h; cases h; exact ⟨by simp, rfl⟩
    · rintro ⟨_, h⟩
      have : ds = [] := by simpa using h.symm
      subst this; rfl
  | v :: l, ds => by
    rw [List.mapM_cons]
    constructor
    · intro h
      cases hv : posInt v with
      | none => rw [hv] at h; cases h
      | some d =>
        rw [hv] at h
        cases hl : l.mapM posInt with
        | none => rw [hl] at h; cases h
        | some ds' =>
          rw [hl] at h
          cases h
          obtain ⟨h0, rfl⟩ := (posInt_eq v d).1 hv
          obtain ⟨h1, rfl⟩ := (mapM_posInt l ds').1 hl
          exact ⟨by simpa using ⟨h0, h1⟩, rfl⟩
    · rintro ⟨h1, h2⟩
      cases ds with
      | nil => cases h2
      | cons d ds' =>
        cases h2
        rw [(posInt_eq _ d).2 ⟨h1 d List.mem_cons_self, rfl⟩, (mapM_posInt _ ds').2 ⟨fun d h => h1 d (List.mem_cons_of_mem _ h), rfl⟩]
        rfl

/-- The dimensions that the arguments of `Tensor` describe: those of the array, one number for all the indices, or a list. -/
def DimsArg.Describes (dims : DimsArg) (shape : Option (List ℕ)) (n : ℕ) (ds : List ℕ) : Prop :=
  match dims with
  | .absent => shape = some ds
  | .scalar q => ∃ d : ℕ, 0 < d ∧ q = d ∧ ds = List.replicate n d
  | .list l => l = ds.map fun (d : ℕ) => .num d

/-- C45, tensors: `Tensor` accepts exactly the arguments with one positive dimension for each index, equal to the shape of the array if there is one. -/
theorem C45_tensor {I : Type} (inds : List I) (dims : DimsArg) (shape : Option (List ℕ)) (t : TensorRec I) :
    mkTensor inds dims shape = .ok t ↔
      t.inds = inds ∧ t.shape = shape ∧ t.dims.length = inds.length ∧ (∀ d ∈ t.dims, 0 < d) ∧ (∀ s, shape = some s → s = t.dims) ∧
        dims.Describes shape inds.length t.dims := by
  have tail : ∀ l : List DimVal, checkTensor inds shape l = .ok t ↔
      t.inds = inds ∧ t.shape = shape ∧ t.dims.length = inds.length ∧ (∀ d ∈ t.dims, 0 < d) ∧ (∀ s, shape = some s → s = t.dims) ∧
        l = t.dims.map fun (d : ℕ) => .num d := by
    intro l
    unfold checkTensor
    constructor
    · intro h
      split at h
      · cases h
      · next ds hds =>
        obtain ⟨h0, h1⟩ := (mapM_posInt l ds).1 hds
        split at h
        · cases h
        · next hlen =>
          rw [not_not] at hlen
          split at h
          · cases h; exact ⟨rfl, rfl, hlen, h0, by simp, h1⟩
          · split at h
            · cases h
            · next hs =>
              rw [not_not] at hs
              cases h; exact ⟨rfl, rfl, hlen, h0, fun s h => by cases h; exact hs, h1⟩
    · rintro ⟨h1, h2, h3, h4, h5, h6⟩
      rw [(mapM_posInt l t.dims).2 ⟨h4, h6⟩]
      dsimp only
      rw [if_neg (by rw [not_not]; exact h3)]
      obtain ⟨ti, td, tsh⟩ := t
      dsimp only at h1 h2 h5 ⊢
      subst h1; subst h2
      cases tsh with
      | none => rfl
      | some s => dsimp only; rw [if_neg (by rw [not_not]; exact h5 s rfl)]
  unfold mkTensor
  cases dims with
  | absent =>
    cases shape with
    | none =>
      simp only [convertDims]
      constructor
      · intro h; cases h
      · rintro ⟨_, _, _, _, _, h⟩; cases h
    | some s =>
      simp only [convertDims]
      rw [tail]
      refine and_congr_right fun _ => and_congr_right fun _ => and_congr_right fun _ => and_congr_right fun _ => and_congr_right fun h => ?_
      have := h s rfl
      subst this
      exact ⟨fun _ => rfl, fun _ => rfl⟩
  | list l =>
    simp only [convertDims]
    rw [tail]; rfl
  | scalar q =>
    simp only [convertDims]
    split
    · next e he =>
      split at he
      · cases he
      · next hq =>
        constructor
        · intro h; cases h
        · rintro ⟨_, _, _, _, _, d, h0, rfl, _⟩
          apply (hq _).elim
          have h1 : ((d : ℚ)).isInt = true := by simp [Rat.isInt]
          rw [h1, Rat.num_natCast]; simp; omega
    · next l hl =>
      split at hl
      · next hq =>
        cases hl
        rw [tail]
        simp only [Bool.and_eq_true, decide_eq_true_eq] at hq
        have hqn : q = ((q.num.toNat : ℕ) : ℚ) := by
          conv_lhs => rw [Rat.eq_num_of_isInt hq.1]
          have : ((q.num.toNat : ℕ) : ℤ) = q.num := by omega
          rw [← Int.cast_natCast, this]
        refine and_congr_right fun _ => and_congr_right fun _ => and_congr_right fun _ => and_congr_right fun _ => and_congr_right fun _ => ?_
        constructor
        · intro h
          refine ⟨q.num.toNat, by omega, hqn, ?_⟩
          have hl : t.dims.length = inds.length := by simpa using congrArg List.length h.symm
          refine List.eq_replicate_iff.2 ⟨hl, fun d hd => ?_⟩
          have hm : DimVal.num (d : ℚ) ∈ List.replicate inds.length (DimVal.num q) := by rw [h]; exact List.mem_map_of_mem (f := fun d : ℕ => DimVal.num d) hd
          have := (List.mem_replicate.1 hm).2
          rw [DimVal.num.injEq] at this
          rw [← this]; simp
        · rintro ⟨d, _, hd, h⟩
          rw [h, List.map_replicate, hd]
      · cases hl

/-- C45, tensors: everything else is a `ValueError`. -/
theorem C45_tensor_error {I : Type} (inds : List I) (dims : DimsArg) (shape : Option (List ℕ)) (e : PyErr) (h : mkTensor inds dims shape = .error e) :
    e = .valueError := by
  unfold mkTensor at h
  split at h
  · next he =>
    unfold convertDims at he
    split at he
    · split at he <;> cases he
      cases h; rfl
    · split at he <;> cases he
      cases h; rfl
    · cases he
  · unfold checkTensor at h
    split at h
    · cases h; rfl
    · split at h
      · cases h; rfl
      · split at h
        · cases h
        · split at h
          · cases h; rfl
          · cases h

variable {I : Type} [DecidableEq I]

/-- Index `x` has dimension `d` in tensor `t`. -/
def TensorRec.Has (t : TensorRec I) (x : I) (d : ℕ) : Prop := ∃ k : ℕ, t.inds[k]? = some x ∧ t.dims[k]? = some d

theorem mem_zip_has {t : TensorRec I} {x : I} {d : ℕ} : (x, d) ∈ t.inds.zip t.dims ↔ t.Has x d := by
  rw [List.mem_iff_getElem?]
  unfold TensorRec.Has
  refine exists_congr fun k => ?_
  rw [List.zip, List.getElem?_zipWith]
  cases t.inds[k]? <;> cases t.dims[k]? <;> simp

/-- What `TensorNetwork` should accept. -/
structure NetworkOk (ts : List (TensorRec I)) (output sparse : Option (List I)) : Prop where
  /-- Equal indices have equal dimensions. -/
  dims : ∀ t ∈ ts, ∀ t' ∈ ts, ∀ x d d', t.Has x d → t'.Has x d' → d = d'
  /-- If no output indices are given, no index occurs more than twice. -/
  hyper : output = none → ∀ x, (ts.flatMap TensorRec.inds).count x ≤ 2
  output : ∀ o, output = some o → ∀ x ∈ o, ∃ t ∈ ts, x ∈ t.inds
  sparse : ∀ s, sparse = some s → ∀ x ∈ s, ∃ t ∈ ts, x ∈ t.inds

theorem mapM_id_some (ts : List (TensorRec I)) : (ts.map some).mapM id = some ts := by
  induction ts with
  | nil => rfl
  | cons t ts ih => rw [List.map_cons, List.mapM_cons, ih]; rfl

theorem mapM_id_eq {l : List (Option (TensorRec I))} {ts : List (TensorRec I)} (h : l.mapM id = some ts) : l = ts.map some := by
  induction l generalizing ts with
  | nil => cases h; rfl
  | cons a l ih =>
    rw [List.mapM_cons] at h
    cases a with
    | none => cases h
    | some t =>
      cases hl : l.mapM id with
      | none => rw [hl] at h; cases h
      | some ts' => rw [hl] at h; cases h; rw [ih hl]; rfl

/-- The dictionary of dimensions agrees with every tensor iff equal indices have equal dimensions. -/
theorem dims_check (ts : List (TensorRec I)) (hv : ∀ t ∈ ts, t.dims.length = t.inds.length) :
    (¬ ∃ t ∈ ts, t.dims.map some ≠ t.inds.map (dget (dupdate [] (ts.flatMap fun t => t.inds.zip t.dims)))) ↔
      ∀ t ∈ ts, ∀ t' ∈ ts, ∀ x d d', t.Has x d → t'.Has x d' → d = d' := by
  have hget : ∀ x, dget (dupdate [] (ts.flatMap fun t => t.inds.zip t.dims)) x = dget (ts.flatMap fun t => t.inds.zip t.dims).reverse x := by
    intro x; rw [dget_dupdate]; simp [dget]
  have hmem : ∀ x d, dget (ts.flatMap fun t => t.inds.zip t.dims).reverse x = some d → ∃ t ∈ ts, t.Has x d := by
    intro x d h
    have := dget_mem h
    rw [List.mem_reverse, List.mem_flatMap] at this
    obtain ⟨t, ht, h⟩ := this
    exact ⟨t, ht, mem_zip_has.1 h⟩
  constructor
  · intro h
    push Not at h
    have key : ∀ t ∈ ts, ∀ x d, t.Has x d → dget (ts.flatMap fun t => t.inds.zip t.dims).reverse x = some d := by
      rintro t ht x d ⟨k, h1, h2⟩
      have := congrArg (fun l => l[k]?) (h t ht)
      rw [List.getElem?_map, List.getElem?_map, h1, h2] at this
      simp only [Option.map_some, Option.some.injEq] at this
      rw [← hget, ← this]
    intro t ht t' ht' x d d' h1 h2
    exact Option.some.inj ((key t ht x d h1).symm.trans (key t' ht' x d' h2))
  · intro h
    push Not
    intro t ht
    refine List.ext_getElem (by simp [hv t ht]) fun k h1 h2 => ?_
    rw [List.length_map] at h1 h2
    rw [List.getElem_map, List.getElem_map, hget]
    have hk : t.Has t.inds[k] t.dims[k] := ⟨k, List.getElem?_eq_getElem h2, List.getElem?_eq_getElem h1⟩
    cases hd : dget (ts.flatMap fun t => t.inds.zip t.dims).reverse t.inds[k] with
    | none =>
      rw [dget_none] at hd
      apply (hd _).elim
      rw [List.map_reverse, List.mem_reverse, List.mem_map]
      exact ⟨(t.inds[k], t.dims[k]), List.mem_flatMap.2 ⟨t, ht, mem_zip_has.2 hk⟩, rfl⟩
    | some d =>
      obtain ⟨t', ht', h'⟩ := hmem _ _ hd
      rw [h t ht t' ht' _ _ _ hk h']

theorem defaultOutput_eq (all : List I) (out : Finset I) :
    defaultOutput all = some out ↔ (∀ x, all.count x ≤ 2) ∧ ∀ x, x ∈ out ↔ all.count x = 1 := by
  unfold defaultOutput
  have hc : (∃ x ∈ all, 1 < (all.count x : Int) - 1) ↔ ¬ ∀ x, all.count x ≤ 2 := by
    push Not
    constructor
    · rintro ⟨x, _, h⟩; exact ⟨x, by omega⟩
    · rintro ⟨x, h⟩; exact ⟨x, List.count_pos_iff.1 (by omega), by omega⟩
  have hm : ∀ x, x ∈ (all.filter fun x => (all.count x : Int) - 1 = 0).toFinset ↔ all.count x = 1 := by
    intro x
    rw [List.mem_toFinset, List.mem_filter, decide_eq_true_eq]
    constructor
    · rintro ⟨_, h⟩; omega
    · intro h; exact ⟨List.count_pos_iff.1 (by omega), by omega⟩
  split
  · next h => exact ⟨fun h => (by cases h), fun h' => absurd h'.1 (hc.1 h)⟩
  · next h =>
    rw [hc, not_not] at h
    constructor
    · intro e; cases e; exact ⟨h, hm⟩
    · rintro ⟨_, h2⟩
      congr 1
      ext x; rw [hm, h2]

/-- C45, networks: `TensorNetwork` accepts exactly the consistent arguments, and records the given output and sparse indices. Without output indices, these are
the indices that occur once. Everything else is a `ValueError`. -/
theorem C45_network (ts : List (TensorRec I)) (hv : ∀ t ∈ ts, t.dims.length = t.inds.length) (output sparse : Option (List I)) :
    (NetworkOk ts output sparse →
      ∃ N, mkNetwork (ts.map some) output sparse = .ok N ∧ N.tensors = ts ∧ (∀ o, output = some o → N.output = o.toFinset) ∧
        (output = none → ∀ x, x ∈ N.output ↔ (ts.flatMap TensorRec.inds).count x = 1) ∧ N.sparse = (sparse.getD []).toFinset ∧
        ∀ t ∈ ts, ∀ x d, t.Has x d → dget N.dims x = some d) ∧
      (¬ NetworkOk ts output sparse → mkNetwork (ts.map some) output sparse = .error .valueError) := by
  have hsub : ∀ s : Finset I, s ⊆ (ts.flatMap TensorRec.inds).toFinset ↔ ∀ x ∈ s, ∃ t ∈ ts, x ∈ t.inds := by
    intro s
    simp only [Finset.subset_iff, List.mem_toFinset, List.mem_flatMap]
  constructor
  · intro h
    have hd := (dims_check ts hv).2 h.dims
    have hget : ∀ t ∈ ts, ∀ x d, t.Has x d → dget (dupdate [] (ts.flatMap fun t => t.inds.zip t.dims)) x = some d := by
      rintro t ht x d ⟨k, h1, h2⟩
      push Not at hd
      have := congrArg (fun l => l[k]?) (hd t ht)
      rw [List.getElem?_map, List.getElem?_map, h1, h2] at this
      simpa using this.symm
    have hsp : (sparse.getD []).toFinset ⊆ (ts.flatMap TensorRec.inds).toFinset := by
      rw [hsub]
      intro x hx
      cases sparse with
      | none => simp at hx
      | some s => exact h.sparse s rfl x (List.mem_toFinset.1 hx)
    unfold mkNetwork
    rw [mapM_id_some]
    dsimp only
    rw [if_neg hd]
    cases output with
    | some o =>
      dsimp only
      have ho : o.toFinset ⊆ (ts.flatMap TensorRec.inds).toFinset := (hsub _).2 fun x hx => h.output o rfl x (List.mem_toFinset.1 hx)
      rw [if_neg (not_not.2 ho), if_neg (not_not.2 hsp)]
      exact ⟨_, rfl, rfl, fun o h => by cases h; rfl, fun h => (by cases h), rfl, hget⟩
    | none =>
      dsimp only
      have hh := h.hyper rfl
      obtain ⟨out, hout⟩ : ∃ out, defaultOutput (ts.flatMap TensorRec.inds) = some out := by
        unfold defaultOutput
        rw [if_neg]
        · exact ⟨_, rfl⟩
        · rintro ⟨x, _, hx⟩; have := hh x; omega
      rw [hout]
      dsimp only
      have hm := ((defaultOutput_eq _ _).1 hout).2
      have ho : out ⊆ (ts.flatMap TensorRec.inds).toFinset := by
        intro x hx
        rw [List.mem_toFinset]
        exact List.count_pos_iff.1 (by have := (hm x).1 hx; omega)
      rw [if_neg (not_not.2 ho), if_neg (not_not.2 hsp)]
      exact ⟨_, rfl, rfl, fun o h => (by cases h), fun _ => hm, rfl, hget⟩
  · intro h
    unfold mkNetwork
    rw [mapM_id_some]
    dsimp only
    split
    · rfl
    · next hd =>
      have hdims := (dims_check ts hv).1 hd
      split
      · rfl
      · next out hout =>
        split
        · rfl
        · next ho =>
          split
          · rfl
          · next hsp =>
            rw [not_not, hsub] at ho hsp
            exfalso
            apply h
            refine ⟨hdims, fun hn => ?_, fun o hn x hx => ?_, fun s hn x hx => ?_⟩
            · subst hn
              exact ((defaultOutput_eq _ _).1 hout).1
            · subst hn
              cases hout
              exact ho x (List.mem_toFinset.2 hx)
            · subst hn
              exact hsp x (List.mem_toFinset.2 hx)

/-- C45, networks: a member that is no `Tensor` is a `ValueError`. -/
theorem C45_not_tensor (l : List (Option (TensorRec I))) (output sparse : Option (List I)) (h : none ∈ l) :
    mkNetwork l output sparse = .error .valueError := by
  unfold mkNetwork
  cases hm : l.mapM id with
  | none => rfl
  | some ts =>
    rw [mapM_id_eq hm] at h
    simp at h

/-- C45, hyper-indices: for tensors without repeated indices, the number of occurrences is the number of tensors with the index. -/
theorem C45_occurrences (ts : List (TensorRec I)) (hn : ∀ t ∈ ts, t.inds.Nodup) (x : I) :
    (ts.flatMap TensorRec.inds).count x = ts.countP fun t => x ∈ t.inds := by
  induction ts with
  | nil => rfl
  | cons t ts ih =>
    rw [List.flatMap_cons, List.count_append, ih fun t ht => hn t (List.mem_cons_of_mem _ ht), List.countP_cons,
      (hn t List.mem_cons_self).count]
    by_cases hx : x ∈ t.inds <;> simp [hx, Nat.add_comm]

/-- C45 fails for tensors with repeated indices: the index occurs in two tensors only, but it is taken for a hyper-index. -/
theorem C45_repeated_violated : ∃ ts : List (TensorRec ℕ), (∀ t ∈ ts, t.dims.length = t.inds.length) ∧ (∀ x, (ts.countP fun t => x ∈ t.inds) ≤ 2) ∧
    (∀ t ∈ ts, ∀ t' ∈ ts, ∀ x d d', t.Has x d → t'.Has x d' → d = d') ∧ (mkNetwork (ts.map some) none none).toOption.map NetworkRec.output = none := by
  have hv : ∀ t ∈ [(⟨[0, 0], [2, 2], none⟩ : TensorRec ℕ), ⟨[0], [2], none⟩], t.dims.length = t.inds.length := by decide
  refine ⟨[⟨[0, 0], [2, 2], none⟩, ⟨[0], [2], none⟩], hv, fun x => ?_, (dims_check _ hv).1 (by decide +kernel), by decide +kernel⟩
  exact List.countP_le_length

/-! The hypotheses are met. -/

example : mkTensor ["a", "b"] (.scalar 2) (some [2, 2]) = .ok ⟨["a", "b"], [2, 2], some [2, 2]⟩ ∧
    mkTensor ["a", "b"] (.list [.num 2, .num (5 / 2)]) none = .error .valueError ∧ mkTensor ["a", "b"] (.scalar 2) (some [2, 3]) = .error .valueError := by
  decide +kernel

example : (mkNetwork [some ⟨["a", "b"], [2, 3], none⟩, some ⟨["b", "c"], [3, 4], none⟩] none (some ["b"])).toOption.map (fun N => (N.output, N.sparse, N.dims)) =
    some ({"a", "c"}, {"b"}, [("a", 2), ("b", 3), ("c", 4)]) := by
  decide +kernel

end TNCO
