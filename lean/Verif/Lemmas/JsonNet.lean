import Verif.Lemmas.JsonRead

/-! # Lemmas: values of networks and results -/

namespace TNCO

theorem okAll_iff (l : List PyJ) : PyJ.OkAll l ↔ ∀ o ∈ l, o.Ok := by
  induction l with
  | nil => simp [PyJ.OkAll]
  | cons o l ih => simp [PyJ.OkAll, ih]

theorem okDict_iff (m : List (KeyJ × PyJ)) : PyJ.OkDict m ↔ ∀ p ∈ m, p.1.Ok ∧ p.2.Ok := by
  induction m with
  | nil => simp [PyJ.OkDict]
  | cons p m ih =>
    obtain ⟨k, o⟩ := p
    simp [PyJ.OkDict, ih, and_assoc]

theorem plainAll_iff (l : List PyJ) : PyJ.PlainAll l ↔ ∀ o ∈ l, o.Plain := by
  induction l with
  | nil => simp [PyJ.PlainAll]
  | cons o l ih => simp [PyJ.PlainAll, ih]

theorem values_some (e : EncoderJ) (l : List PyJ) (vs : List Json) : PyJ.values e l = some vs ↔ List.Forall₂ (Written e) l vs := by
  induction l generalizing vs with
  | nil => simp [PyJ.values, eq_comm]
  | cons o l ih =>
    simp only [PyJ.values, Option.bind_eq_some_iff, Option.map_eq_some_iff, List.forall₂_cons_left_iff]
    constructor
    · rintro ⟨v, hv, vs', hvs, rfl⟩
      exact ⟨v, vs', hv, (ih vs').1 hvs, rfl⟩
    · rintro ⟨v, vs', hv, hvs, rfl⟩
      exact ⟨v, hv, vs', (ih vs').2 hvs, rfl⟩

theorem values_none (e : EncoderJ) (l : List PyJ) : PyJ.values e l = none ↔ ∃ o ∈ l, o.value e = none := by
  induction l with
  | nil => simp [PyJ.values]
  | cons o l ih =>
    cases h : o.value e with
    | none => simp [PyJ.values, h]
    | some v => simp [PyJ.values, h, ih]

theorem members_some (e : EncoderJ) (m : List (KeyJ × PyJ)) (ms : List (List ℕ × Json)) :
    PyJ.members e m = some ms ↔ List.Forall₂ (WrittenItem e) m ms := by
  induction m generalizing ms with
  | nil => simp [PyJ.members, eq_comm]
  | cons p m ih =>
    obtain ⟨k, o⟩ := p
    simp only [PyJ.members, Option.bind_eq_some_iff, Option.map_eq_some_iff, List.forall₂_cons_left_iff]
    constructor
    · rintro ⟨k', hk, v, hv, ms', hms, rfl⟩
      exact ⟨(k', v), ms', ⟨hk, hv⟩, (ih ms').1 hms, rfl⟩
    · rintro ⟨⟨k', v⟩, ms', ⟨hk, hv⟩, hms, rfl⟩
      exact ⟨k', hk, v, hv, ms', (ih ms').2 hms, rfl⟩

theorem members_none (e : EncoderJ) (m : List (KeyJ × PyJ)) : PyJ.members e m = none ↔ ∃ p ∈ m, ¬ ItemWritable e p := by
  induction m with
  | nil => simp [PyJ.members]
  | cons p m ih =>
    obtain ⟨k, o⟩ := p
    cases hk : keyText k with
    | none => simp [PyJ.members, hk, ItemWritable]
    | some ks =>
      cases h : o.value e with
      | none => simp [PyJ.members, hk, h, ItemWritable]
      | some v => simp [PyJ.members, hk, h, ItemWritable, ih]

theorem forall₂_range_lt {d : ℕ} {ds : List ℕ} {P : List ℕ → Prop} :
    (∀ idx, List.Forall₂ (· < ·) idx (d :: ds) → P idx) ↔ ∀ i < d, ∀ idx, List.Forall₂ (· < ·) idx ds → P (i :: idx) := by
  constructor
  · intro h i hi idx hidx
    exact h _ (.cons hi hidx)
  · intro h idx hidx
    cases hidx with
    | cons hi hidx => exact h _ hi _ hidx

theorem nested_ok {shape : List ℕ} {f : List ℕ → PyJ} (h : ∀ idx, List.Forall₂ (· < ·) idx shape → (f idx).Ok) : (nestedList shape f).Ok := by
  induction shape generalizing f with
  | nil => exact h [] .nil
  | cons d ds ih =>
    simp only [nestedList, PyJ.Ok]
    rw [okAll_iff]
    intro o ho
    simp only [List.mem_map, List.mem_range] at ho
    obtain ⟨i, hi, rfl⟩ := ho
    exact ih fun idx hidx => h _ (.cons hi hidx)

theorem nested_none {e : EncoderJ} {shape : List ℕ} {f : List ℕ → PyJ} :
    (nestedList shape f).value e = none ↔ ∃ idx, List.Forall₂ (· < ·) idx shape ∧ (f idx).value e = none := by
  induction shape generalizing f with
  | nil => simp [nestedList]
  | cons d ds ih =>
    simp only [nestedList, PyJ.value, Option.map_eq_none_iff]
    rw [values_none]
    constructor
    · rintro ⟨o, ho, hv⟩
      simp only [List.mem_map, List.mem_range] at ho
      obtain ⟨i, hi, rfl⟩ := ho
      obtain ⟨idx, hidx, hv⟩ := ih.1 hv
      exact ⟨i :: idx, .cons hi hidx, hv⟩
    · rintro ⟨idx, hidx, hv⟩
      cases hidx with
      | @cons i _ idx _ hi hidx =>
        exact ⟨nestedList ds fun idx => f (i :: idx), List.mem_map.2 ⟨i, List.mem_range.2 hi, rfl⟩, ih.2 ⟨idx, hidx, hv⟩⟩

theorem forall₂_getElem? {α β : Type} {R : α → β → Prop} {l : List α} {l' : List β} (h : List.Forall₂ R l l') {i : ℕ} {a : α} (ha : l[i]? = some a) :
    ∃ b, l'[i]? = some b ∧ R a b := by
  induction h generalizing i with
  | nil => simp at ha
  | @cons x y l l' hxy _ ih =>
    cases i with
    | zero =>
      simp only [List.getElem?_cons_zero, Option.some.injEq] at ha
      subst ha
      exact ⟨y, rfl, hxy⟩
    | succ i =>
      simp only [List.getElem?_cons_succ] at ha ⊢
      exact ih ha

theorem nested_some {e : EncoderJ} {shape : List ℕ} {f : List ℕ → PyJ} {j : Json} (h : (nestedList shape f).value e = some j) :
    j.HasShape shape ∧ ∀ idx, List.Forall₂ (· < ·) idx shape → ∃ v, (f idx).value e = some v ∧ j.entry idx = some v := by
  induction shape generalizing f j with
  | nil =>
    refine ⟨by cases j <;> trivial, ?_⟩
    intro idx hidx
    cases hidx
    exact ⟨j, h, by cases j <;> rfl⟩
  | cons d ds ih =>
    simp only [nestedList, PyJ.value, Option.map_eq_some_iff] at h
    obtain ⟨vs, hvs, rfl⟩ := h
    rw [values_some] at hvs
    have hlen := hvs.length_eq
    rw [List.length_map, List.length_range] at hlen
    have hat : ∀ i < d, ∃ v, vs[i]? = some v ∧ (nestedList ds fun idx => f (i :: idx)).value e = some v := by
      intro i hi
      exact forall₂_getElem? hvs (i := i) (a := nestedList ds fun idx => f (i :: idx)) (by simp [hi])
    constructor
    · refine ⟨hlen.symm, ?_⟩
      intro j hj
      obtain ⟨i, hi, rfl⟩ := List.mem_iff_getElem.1 hj
      obtain ⟨v, hv, hv'⟩ := hat i (by omega)
      rw [List.getElem?_eq_getElem hi, Option.some.injEq] at hv
      subst hv
      exact (ih hv').1
    · intro idx hidx
      cases hidx with
      | @cons i _ idx _ hi hidx =>
        obtain ⟨v, hv, hv'⟩ := hat i hi
        obtain ⟨w, hw, hw'⟩ := (ih hv').2 idx hidx
        exact ⟨w, hw, by simp [Json.entry, hv, hw']⟩

theorem value_str_key (s : List ℕ) : keyText (.str s) = some s := rfl

/-- The array of a tensor. -/
def TensorJ.arrayJ (t : TensorJ) : PyJ :=
  match t.array with
  | none => .none
  | some a => nestedList a.shape a.get

theorem TensorJ.default_eq (t : TensorJ) : t.default =
    .dict [(.str keyInds, .tuple t.inds), (.str keyDims, .tuple (t.dims.map fun d : ℕ => PyJ.int d)), (.str keyArray, t.arrayJ), (.str keyTags, .dict t.tags)] := rfl

theorem dims_values (e : EncoderJ) (l : List ℕ) : PyJ.values e (l.map fun d : ℕ => PyJ.int d) = some (l.map natJson) := by
  induction l with
  | nil => rfl
  | cons d l ih =>
    simp only [List.map_cons, PyJ.values, PyJ.value, ih, Option.bind_some, Option.map_some]
    rfl

theorem path_value (e : EncoderJ) (p : List (ℕ × ℕ)) : (pathJ p).value e = some (pathJson p) := by
  simp only [pathJ, pathJson, PyJ.value]
  have : PyJ.values e (p.map fun q => .tuple [.int q.1, .int q.2]) = some (p.map fun q => .arr [natJson q.1, natJson q.2]) := by
    induction p with
    | nil => rfl
    | cons q p ih =>
      simp only [List.map_cons, PyJ.values, PyJ.value, ih, Option.bind_some, Option.map_some]
      rfl
  rw [this]
  rfl

theorem paths_values (e : EncoderJ) (l : List (List (ℕ × ℕ))) : PyJ.values e (l.map pathJ) = some (l.map pathJson) := by
  induction l with
  | nil => rfl
  | cons p l ih =>
    rw [List.map_cons]
    simp only [PyJ.values, ih, path_value, Option.bind_some, Option.map_some, List.map_cons]

theorem arrayJ_some {t : TensorJ} {j : Json} (h : t.arrayJ.value .network = some j) : WrittenArray t.array j := by
  unfold TensorJ.arrayJ at h
  cases ha : t.array with
  | none =>
    rw [ha] at h
    simp only [PyJ.value, Option.some.injEq] at h
    exact ⟨fun _ => h.symm, fun A hA => by simp at hA, fun A hA => by simp at hA⟩
  | some a =>
    rw [ha] at h
    obtain ⟨h1, h2⟩ := nested_some h
    refine ⟨fun h => by simp at h, fun A hA => ?_, fun A hA => ?_⟩
    · simp only [Option.some.injEq] at hA
      subst hA
      exact h1
    · simp only [Option.some.injEq] at hA
      subst hA
      exact h2

theorem tensor_some {t : TensorJ} {j : Json} (h : t.default.value .network = some j) : WrittenTensor t j := by
  rw [TensorJ.default_eq, PyJ.value, Option.map_eq_some_iff] at h
  obtain ⟨ms, hms, rfl⟩ := h
  simp only [PyJ.members, value_str_key, Option.bind_some, PyJ.value, dims_values, Option.map_some, Option.bind_eq_some_iff, Option.map_eq_some_iff,
    Option.some.injEq] at hms
  obtain ⟨i, ⟨is, his, rfl⟩, l1, ⟨l0, ⟨a, ha, l2, ⟨tg, ⟨tags, htags, rfl⟩, rfl⟩, rfl⟩, rfl⟩, rfl⟩ := hms
  exact ⟨is, a, tags, rfl, (values_some _ _ _).1 his, arrayJ_some ha, (members_some _ _ _).1 htags⟩

theorem arrayJ_none {t : TensorJ} : t.arrayJ.value .network = none ↔
    ∃ A, t.array = some A ∧ ∃ idx, List.Forall₂ (· < ·) idx A.shape ∧ (A.get idx).value .network = none := by
  unfold TensorJ.arrayJ
  cases t.array with
  | none => simp [PyJ.value]
  | some a =>
    simp only [Option.some.injEq, exists_eq_left']
    exact nested_none

theorem tensor_none {t : TensorJ} : t.default.value .network = none ↔ t.Unwritable := by
  rw [TensorJ.default_eq, PyJ.value, Option.map_eq_none_iff, members_none]
  simp only [List.mem_cons, List.not_mem_nil, or_false, exists_eq_or_imp, exists_eq_left, ItemWritable, value_str_key, PyJ.value, dims_values]
  simp only [ne_eq, reduceCtorEq, not_false_eq_true, true_and, not_not, Option.map_eq_none_iff, values_none, members_none, arrayJ_none, Option.map_some,
    not_true_eq_false, false_or, TensorJ.Unwritable, ItemWritable]

theorem tensor_ok {t : TensorJ} (h : t.Ok) : t.default.Ok := by
  rw [TensorJ.default_eq]
  have hk : ∀ k ∈ [keyInds, keyDims, keyArray, keyTags], TextOk k := by
    intro k hk c hc
    left
    revert c
    revert k
    decide
  simp only [PyJ.Ok, PyJ.OkDict, KeyJ.Ok]
  refine ⟨hk _ (by simp), (okAll_iff _).2 h.inds, hk _ (by simp), (okAll_iff _).2 ?_, hk _ (by simp), ?_, hk _ (by simp), (okDict_iff _).2 h.tags, trivial⟩
  · intro o ho
    simp only [List.mem_map] at ho
    obtain ⟨d, -, rfl⟩ := ho
    trivial
  · unfold TensorJ.arrayJ
    have he := h.entries
    cases ha : t.array with
    | none => trivial
    | some a => exact nested_ok (he a ha)

theorem network_some {N : NetworkJ} {j : Json} (h : N.default.value .network = some j) : WrittenNetwork N j := by
  rw [NetworkJ.default, PyJ.value, Option.map_eq_some_iff] at h
  obtain ⟨ms, hms, rfl⟩ := h
  simp only [PyJ.members, value_str_key, Option.bind_some, PyJ.value, Option.map_some, Option.bind_eq_some_iff, Option.map_eq_some_iff, reduceCtorEq,
    if_false, Option.some.injEq] at hms
  obtain ⟨i, ⟨ts, hts, rfl⟩, l1, ⟨a, ⟨out, hout, rfl⟩, l2, ⟨tg, ⟨sp, hsp, rfl⟩, rfl⟩, rfl⟩, rfl⟩ := hms
  refine ⟨ts, out, sp, rfl, ?_, (values_some _ _ _).1 hout, (values_some _ _ _).1 hsp⟩
  rw [values_some, List.forall₂_map_left_iff] at hts
  exact hts.imp fun _ _ h => tensor_some h

theorem network_none {N : NetworkJ} : N.default.value .network = none ↔
    (∃ t ∈ N.tensors, t.Unwritable) ∨ (∃ o ∈ N.output, o.value .network = none) ∨ ∃ o ∈ N.sparse, o.value .network = none := by
  rw [NetworkJ.default, PyJ.value, Option.map_eq_none_iff, members_none]
  simp only [List.mem_cons, List.not_mem_nil, or_false, exists_eq_or_imp, exists_eq_left, ItemWritable, value_str_key, PyJ.value]
  simp only [ne_eq, reduceCtorEq, not_false_eq_true, true_and, not_not, Option.map_eq_none_iff, values_none, if_false, List.mem_map,
    exists_exists_and_eq_and, tensor_none]

theorem network_ok {N : NetworkJ} (h : N.Ok) : N.default.Ok := by
  have hk : ∀ k ∈ [keyTensors, keyOutput, keySparse], TextOk k := by
    intro k hk c hc
    left
    revert c
    revert k
    decide
  simp only [NetworkJ.default, PyJ.Ok, PyJ.OkDict, KeyJ.Ok]
  refine ⟨hk _ (by simp), (okAll_iff _).2 ?_, hk _ (by simp), (okAll_iff _).2 h.output, hk _ (by simp), (okAll_iff _).2 h.sparse, trivial⟩
  intro o ho
  simp only [List.mem_map] at ho
  obtain ⟨t, ht, rfl⟩ := ho
  exact tensor_ok (h.tensors t ht)

theorem slices_some {ds : List (List PyJ)} {js : List Json} (h : PyJ.values .finite (ds.map PyJ.frozenset) = some js) :
    List.Forall₂ (fun d j => ∃ l, j = Json.arr l ∧ List.Forall₂ (Written .finite) d l) ds js := by
  rw [values_some, List.forall₂_map_left_iff] at h
  refine h.imp ?_
  intro d j hdj
  simp only [Written, PyJ.value, reduceCtorEq, if_false, Option.map_eq_some_iff] at hdj
  obtain ⟨l, hl, rfl⟩ := hdj
  exact ⟨l, rfl, (values_some _ _ _).1 hl⟩

theorem result_some {r : ResultJ} {j : Json} (h : r.default.value r.encoder = some j) : WrittenResult r j := by
  obtain ⟨cost, runtime, path, dcosts, dpaths, fin⟩ := r
  cases fin with
  | none =>
    simp only [ResultJ.default, ResultJ.base, List.cons_append, List.nil_append, PyJ.value, Option.map_eq_some_iff, PyJ.members, value_str_key,
      Option.bind_some, path_value, paths_values, Option.map_some, Option.bind_eq_some_iff, Option.some.injEq] at h
    obtain ⟨ms, ⟨c, hc, l1, ⟨t, ht, l2, rfl, rfl⟩, rfl⟩, rfl⟩ := h
    exact ⟨c, t, [], rfl, hc, ht, fun _ => rfl, fun _ _ h => by simp at h⟩
  | some p =>
    obtain ⟨ds, s⟩ := p
    simp only [ResultJ.default, ResultJ.base, ResultJ.encoder, Option.isNone_some, Bool.false_eq_true, reduceCtorEq, if_false, List.cons_append,
      List.nil_append, PyJ.value, Option.map_eq_some_iff, PyJ.members, value_str_key, Option.bind_some, path_value, paths_values, Option.map_some,
      Option.bind_eq_some_iff, Option.some.injEq] at h
    obtain ⟨ms, ⟨c, hc, l1, ⟨t, ht, l2, ⟨l3, ⟨l4, ⟨v, ⟨js, hjs, rfl⟩, l5, ⟨w, ⟨sl, hsl, rfl⟩, rfl⟩, rfl⟩, rfl⟩, rfl⟩, rfl⟩, rfl⟩, rfl⟩ := h
    refine ⟨c, t, _, rfl, hc, ht, fun h => by simp at h, ?_⟩
    intro ds' s' h
    simp only [Option.some.injEq, Prod.mk.injEq] at h
    obtain ⟨rfl, rfl⟩ := h
    exact ⟨js, sl, rfl, (values_some _ _ _).1 hsl, slices_some hjs⟩

theorem result_none {r : ResultJ} : r.default.value r.encoder = none ↔ r.Unwritable := by
  obtain ⟨cost, runtime, path, dcosts, dpaths, fin⟩ := r
  cases fin with
  | none =>
    simp only [ResultJ.default, ResultJ.base, List.cons_append, List.nil_append, PyJ.value, Option.map_eq_none_iff, members_none, List.mem_cons,
      List.not_mem_nil, or_false, exists_eq_or_imp, exists_eq_left, ItemWritable, value_str_key, path_value, paths_values, Option.map_some]
    simp [ResultJ.Unwritable]
  | some p =>
    obtain ⟨ds, s⟩ := p
    simp only [ResultJ.default, ResultJ.base, List.cons_append, List.nil_append, PyJ.value, Option.map_eq_none_iff, members_none, List.mem_cons,
      List.not_mem_nil, or_false, exists_eq_or_imp, exists_eq_left, ItemWritable, value_str_key, path_value, paths_values, Option.map_some]
    simp only [ResultJ.Unwritable, ResultJ.encoder, Option.isNone_some, Bool.false_eq_true, reduceCtorEq, if_false, ne_eq, not_false_eq_true, true_and,
      not_not, Option.map_eq_none_iff, values_none, List.mem_map, exists_exists_and_eq_and, PyJ.value, Option.some.injEq, Prod.mk.injEq, not_true_eq_false, false_or]
    constructor
    · rintro (h | h | h | h)
      · exact .inl h
      · exact .inr (.inl h)
      · exact .inr (.inr ⟨ds, s, ⟨rfl, rfl⟩, .inr h⟩)
      · exact .inr (.inr ⟨ds, s, ⟨rfl, rfl⟩, .inl h⟩)
    · rintro (h | h | ⟨_, _, ⟨rfl, rfl⟩, h | h⟩)
      · exact .inl h
      · exact .inr (.inl h)
      · exact .inr (.inr (.inr h))
      · exact .inr (.inr (.inl h))

theorem path_ok (p : List (ℕ × ℕ)) : (pathJ p).Ok := by
  simp only [pathJ, PyJ.Ok]
  rw [okAll_iff]
  intro o ho
  simp only [List.mem_map] at ho
  obtain ⟨q, -, rfl⟩ := ho
  simp [PyJ.Ok, PyJ.OkAll]

theorem result_ok {r : ResultJ} (h : r.Ok) : r.default.Ok := by
  have hk : ∀ k ∈ [keyCost, keyRuntime, keyPath, keyPaths, keyDSlices, keySlices], TextOk k := by
    intro k hk c hc
    left
    revert c
    revert k
    decide
  have hp : PyJ.OkAll (r.disconnectedPaths.map pathJ) := by
    rw [okAll_iff]
    intro o ho
    simp only [List.mem_map] at ho
    obtain ⟨q, -, rfl⟩ := ho
    exact path_ok q
  obtain ⟨cost, runtime, path, dcosts, dpaths, fin⟩ := r
  have hs := h.slices
  cases fin with
  | none =>
    simp only [ResultJ.default, ResultJ.base, List.cons_append, List.nil_append, PyJ.Ok, PyJ.OkDict, KeyJ.Ok]
    exact ⟨hk _ (by simp), h.cost, hk _ (by simp), h.runtime, hk _ (by simp), path_ok _, hk _ (by simp), hp, trivial⟩
  | some p =>
    obtain ⟨ds, s⟩ := p
    obtain ⟨h1, h2⟩ := hs ds s rfl
    simp only [ResultJ.default, ResultJ.base, List.cons_append, List.nil_append, PyJ.Ok, PyJ.OkDict, KeyJ.Ok]
    refine ⟨hk _ (by simp), h.cost, hk _ (by simp), h.runtime, hk _ (by simp), path_ok _, hk _ (by simp), hp, hk _ (by simp), ?_, hk _ (by simp),
      (okAll_iff _).2 h1, trivial⟩
    rw [okAll_iff]
    intro o ho
    simp only [List.mem_map] at ho
    obtain ⟨d, hd, rfl⟩ := ho
    simp only [PyJ.Ok]
    rw [okAll_iff]
    exact h2 d hd

theorem result_toJson (r : ResultJ) : r.toJson = r.default.dumps r.encoder := by
  unfold ResultJ.toJson ResultJ.encoder
  cases r.finite <;> rfl

mutual
theorem plain_injective (e : EncoderJ) : ∀ a b : PyJ, a.Plain → b.Plain → a.value e = b.value e → a = b
  | .none, b, _, hb, h => by
    cases b <;> simp_all [PyJ.value, PyJ.Plain]
    all_goals
      rename_i l
      cases hv : PyJ.values e l <;> simp [hv] at h
  | .bool x, b, _, hb, h => by
    cases b <;> simp_all [PyJ.value, PyJ.Plain]
    all_goals
      rename_i l
      cases hv : PyJ.values e l <;> simp [hv] at h
  | .int x, b, _, hb, h => by
    cases b with
    | int y =>
      simp only [PyJ.value, Option.some.injEq, Json.num.injEq] at h
      rw [intText_injective h]
    | tuple l =>
      simp only [PyJ.value] at h
      cases hv : PyJ.values e l <;> simp [hv] at h
    | _ => simp_all [PyJ.value, PyJ.Plain]
  | .str x, b, _, hb, h => by
    cases b <;> simp_all [PyJ.value, PyJ.Plain]
    all_goals
      rename_i l
      cases hv : PyJ.values e l <;> simp [hv] at h
  | .tuple l, b, ha, hb, h => by
    cases b with
    | tuple l' =>
      simp only [PyJ.value] at h
      obtain ⟨vs, hv⟩ := plain_values e l ha
      obtain ⟨vs', hv'⟩ := plain_values e l' hb
      rw [hv, hv'] at h
      simp only [Option.map_some, Option.some.injEq, Json.arr.injEq] at h
      rw [plain_injective_all e l l' ha hb (by rw [hv, hv', h])]
    | none =>
      simp only [PyJ.value] at h
      cases hv : PyJ.values e l <;> simp [hv] at h
    | bool b =>
      simp only [PyJ.value] at h
      cases hv : PyJ.values e l <;> simp [hv] at h
    | int b =>
      simp only [PyJ.value] at h
      cases hv : PyJ.values e l <;> simp [hv] at h
    | str b =>
      simp only [PyJ.value] at h
      cases hv : PyJ.values e l <;> simp [hv] at h
    | _ => simp_all [PyJ.value, PyJ.Plain]
theorem plain_injective_all (e : EncoderJ) : ∀ l l' : List PyJ, PyJ.PlainAll l → PyJ.PlainAll l' → PyJ.values e l = PyJ.values e l' → l = l'
  | [], [], _, _, _ => rfl
  | [], o :: l', _, hl, h => by
    obtain ⟨vs, hv⟩ := plain_values e (o :: l') hl
    rw [values_some] at hv
    cases hv with
    | cons h1 h2 =>
      rw [show PyJ.values e (o :: l') = _ from (values_some e _ _).2 (.cons h1 h2)] at h
      simp [PyJ.values] at h
  | o :: l, [], hl, _, h => by
    obtain ⟨vs, hv⟩ := plain_values e (o :: l) hl
    rw [values_some] at hv
    cases hv with
    | cons h1 h2 =>
      rw [show PyJ.values e (o :: l) = _ from (values_some e _ _).2 (.cons h1 h2)] at h
      simp [PyJ.values] at h
  | o :: l, o' :: l', h1, h2, h => by
    obtain ⟨v, hv⟩ := plain_value e o h1.1
    obtain ⟨v', hv'⟩ := plain_value e o' h2.1
    obtain ⟨vs, hvs⟩ := plain_values e l h1.2
    obtain ⟨vs', hvs'⟩ := plain_values e l' h2.2
    simp only [PyJ.values, hv, hv', hvs, hvs', Option.bind_some, Option.map_some, Option.some.injEq, List.cons.injEq] at h
    rw [plain_injective e o o' h1.1 h2.1 (by rw [hv, hv', h.1]), plain_injective_all e l l' h1.2 h2.2 (by rw [hvs, hvs', h.2])]
theorem plain_value (e : EncoderJ) : ∀ o : PyJ, o.Plain → ∃ v, o.value e = some v
  | .none, _ => ⟨_, rfl⟩
  | .bool _, _ => ⟨_, rfl⟩
  | .int _, _ => ⟨_, rfl⟩
  | .str _, _ => ⟨_, rfl⟩
  | .tuple l, h => by
    obtain ⟨vs, hv⟩ := plain_values e l h
    exact ⟨.arr vs, by simp [PyJ.value, hv]⟩
theorem plain_values (e : EncoderJ) : ∀ l : List PyJ, PyJ.PlainAll l → ∃ vs, PyJ.values e l = some vs
  | [], _ => ⟨_, rfl⟩
  | o :: l, h => by
    obtain ⟨v, hv⟩ := plain_value e o h.1
    obtain ⟨vs, hvs⟩ := plain_values e l h.2
    exact ⟨v :: vs, by simp [PyJ.values, hv, hvs]⟩
end

theorem written_plain {e : EncoderJ} {l l' : List PyJ} {vs : List Json} (h : List.Forall₂ (Written e) l vs) (h' : List.Forall₂ (Written e) l' vs)
    (hp : ∀ o ∈ l, o.Plain) (hp' : ∀ o ∈ l', o.Plain) : l = l' := by
  refine plain_injective_all e l l' ((plainAll_iff l).2 hp) ((plainAll_iff l').2 hp') ?_
  rw [(values_some _ _ _).2 h, (values_some _ _ _).2 h']

theorem natJson_injective : Function.Injective natJson := by
  intro a b h
  simp only [natJson, Json.num.injEq] at h
  exact_mod_cast intText_injective h

theorem joinRes_ok (env : DumpEnv NetworkJ ResultJ) (he : env.resJson = ResultJ.toJson) (rs : List ResultJ) (hr : ∀ r ∈ rs, r.Ok) :
    ((∃ r ∈ rs, r.Unwritable) ∧ joinRes env rs = .error .typeError) ∨
      ((∀ r ∈ rs, ¬ r.Unwritable) ∧ ∃ ss js, joinRes env rs = .ok (joinComma ss) ∧ List.Forall₂ Reads ss js ∧ List.Forall₂ WrittenResult rs js) := by
  have one : ∀ r : ResultJ, r.Ok → (r.Unwritable ∧ env.resJson r = .error .typeError) ∨
      (¬ r.Unwritable ∧ ∃ s j, env.resJson r = .ok s ∧ Reads s j ∧ WrittenResult r j) := by
    intro r hr
    rw [he, result_toJson, ← result_none]
    rcases dumps_reads r.encoder r.default (result_ok hr) with ⟨h1, h2⟩ | ⟨v, s, h1, h2, h3⟩
    · exact .inl ⟨h1, h2⟩
    · exact .inr ⟨by simp [h1], s, v, h2, h3, result_some h1⟩
  induction rs with
  | nil => exact .inr ⟨by simp, [], [], rfl, .nil, .nil⟩
  | cons r rs ih =>
    have ih := ih fun r h => hr r (List.mem_cons_of_mem _ h)
    rcases one r (hr r (by simp)) with ⟨h1, h2⟩ | ⟨h1, s, j, h2, h3, h4⟩
    · refine .inl ⟨⟨r, by simp, h1⟩, ?_⟩
      cases rs with
      | nil => exact h2
      | cons r' rs => simp [joinRes, h2]
    · cases rs with
      | nil => exact .inr ⟨by simpa using h1, [s], [j], h2, .cons h3 .nil, .cons h4 .nil⟩
      | cons r' rs =>
        rcases ih with ⟨⟨x, hx, hx'⟩, i2⟩ | ⟨i1, ss, js, i2, i3, i4⟩
        · exact .inl ⟨⟨x, List.mem_cons_of_mem _ hx, hx'⟩, by simp [joinRes, h2, i2]⟩
        · refine .inr ⟨?_, s :: ss, j :: js, ?_, .cons h3 i3, .cons h4 i4⟩
          · intro x hx
            rcases List.mem_cons.1 hx with rfl | hx
            · exact h1
            · exact i1 x hx
          · have : ss ≠ [] := by
              rintro rfl
              cases i3
              cases i4
            rw [joinComma_cons _ _ this]
            simp [joinRes, h2, i2]

theorem read_output {s t : List ℕ} {j k : Json} (hs : Reads s j) (ht : Reads t k) :
    readJson ([123, 34, 116, 110, 34, 32, 58, 32] ++ s ++ [44, 32, 34, 114, 101, 115, 34, 32, 58, 32] ++ t ++ [125]) =
      some (.obj [(keyTn, j), (keyRes, k)]) := by
  have e : [123, 34, 116, 110, 34, 32, 58, 32] ++ s ++ [44, 32, 34, 114, 101, 115, 34, 32, 58, 32] ++ t ++ [125] =
      123 :: 34 :: (keyTn.flatMap escapeChar ++ 34 :: 32 :: 58 :: 32 :: (s ++ 44 :: 32 :: 34 :: (keyRes.flatMap escapeChar ++ 34 :: 32 :: 58 :: 32 :: (t ++ [125])))) := by
    have h1 : keyTn.flatMap escapeChar = [116, 110] := by decide
    have h2 : keyRes.flatMap escapeChar = [114, 101, 115] := by decide
    rw [h1, h2]
    simp
  have h1 : TextOk keyTn := by
    intro c hc
    left
    revert c
    decide
  have h2 : TextOk keyRes := by
    intro c hc
    left
    revert c
    decide
  rw [e]
  unfold readJson
  obtain ⟨n, hn, hn'⟩ : ∃ n, (123 :: 34 :: (keyTn.flatMap escapeChar ++ 34 :: 32 :: 58 :: 32 :: (s ++ 44 :: 32 :: 34 :: (keyRes.flatMap escapeChar ++ 34 :: 32 ::
      58 :: 32 :: (t ++ [125])))) : List ℕ).length + 1 = n + 1 + 1 + 1 ∧ s.length + t.length ≤ n := ⟨s.length + t.length + 17, by
        have h1 : keyTn.flatMap escapeChar = [116, 110] := by decide
        have h2 : keyRes.flatMap escapeChar = [114, 101, 115] := by decide
        rw [h1, h2]
        simp
        omega, by omega⟩
  rw [hn, readValue, skipWs_of (by decide)]
  have q1 : (skipWs (34 :: (keyTn.flatMap escapeChar ++ 34 :: 32 :: 58 :: 32 :: (s ++ 44 :: 32 :: 34 :: (keyRes.flatMap escapeChar ++ 34 :: 32 ::
      58 :: 32 :: (t ++ [125])))))).head? ≠ some 125 := by
    rw [skipWs_of (by decide)]
    simp
  simp only [Nat.reduceEqDiff, if_false, if_true, q1]
  rw [readMembers, skipWs_of (by decide)]
  simp only [List.head?_cons, List.tail_cons, if_true]
  rw [readString_text h1 _ (by simp [keyTn])]
  have q2 : ∀ r, skipWs (32 :: 58 :: r) = 58 :: r := fun r => rfl
  have q3 : ∀ r, skipWs (44 :: r) = 44 :: r := fun r => rfl
  have q4 : ∀ r, skipWs (32 :: 34 :: r) = 34 :: r := fun r => rfl
  simp only [q2, List.head?_cons, List.tail_cons, if_true]
  rw [readValue_space, hs.read _ _ (by omega) (ends_of (by decide))]
  simp only [q3, List.head?_cons, List.tail_cons, Option.some.injEq, Nat.reduceEqDiff, if_false, if_true]
  rw [readMembers, q4]
  simp only [List.head?_cons, List.tail_cons, if_true]
  rw [readString_text h2 _ (by simp [keyRes])]
  simp only [q2, List.head?_cons, List.tail_cons, if_true]
  rw [readValue_space, ht.read _ _ (by omega) (ends_of (by decide))]
  simp [skipWs, isWs]

end TNCO
