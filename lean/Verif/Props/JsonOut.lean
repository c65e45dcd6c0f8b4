import Verif.Lemmas.JsonNet

/-! # C71: the JSON output -/

namespace TNCO

/-- C71, text: what `json.dumps` writes is read as the value of the object. -/
theorem C71_text (e : EncoderJ) (o : PyJ) (ho : o.Ok) (s : List ℕ) (h : o.dumps e = .ok s) : readJson s = o.value e := by
  rcases dumps_reads e o ho with ⟨-, h2⟩ | ⟨v, s', h1, h2, h3⟩
  · rw [h] at h2
    simp at h2
  · rw [h, Except.ok.injEq] at h2
    subst h2
    rw [reads_json h3, h1]

/-- C71: the text of a network is JSON; it has the indices, dimensions, entries and tags of all tensors in order, and the output and sparse indices. -/
theorem C71_network (N : NetworkJ) (hN : N.Ok) (s : List ℕ) (h : N.toJson = .ok s) : ∃ j, readJson s = some j ∧ WrittenNetwork N j := by
  rcases dumps_reads .network N.default (network_ok hN) with ⟨-, h2⟩ | ⟨v, s', h1, h2, h3⟩
  · rw [NetworkJ.toJson, h2] at h
    simp at h
  · rw [NetworkJ.toJson, h2, Except.ok.injEq] at h
    subst h
    exact ⟨v, reads_json h3, network_some h1⟩

/-- C71, errors: writing a network fails, with `TypeError`, exactly if an index, an entry or a tag cannot be written. -/
theorem C71_network_errors (N : NetworkJ) (hN : N.Ok) (x : AppErr) : N.toJson = .error x ↔ x = .typeError ∧
    ((∃ t ∈ N.tensors, t.Unwritable) ∨ (∃ o ∈ N.output, o.value .network = none) ∨ ∃ o ∈ N.sparse, o.value .network = none) := by
  rw [← network_none]
  rcases dumps_reads .network N.default (network_ok hN) with ⟨h1, h2⟩ | ⟨v, s', h1, h2, -⟩
  · rw [NetworkJ.toJson, h1, h2]
    simp [eq_comm]
  · rw [NetworkJ.toJson, h1, h2]
    simp

/-- C71: the text of a tensor. -/
theorem C71_tensor (t : TensorJ) (ht : t.Ok) (s : List ℕ) (h : t.toJson = .ok s) : ∃ j, readJson s = some j ∧ WrittenTensor t j := by
  rcases dumps_reads .network t.default (tensor_ok ht) with ⟨-, h2⟩ | ⟨v, s', h1, h2, h3⟩
  · rw [TensorJ.toJson, h2] at h
    simp at h
  · rw [TensorJ.toJson, h2, Except.ok.injEq] at h
    subst h
    exact ⟨v, reads_json h3, tensor_some h1⟩

/-- C71: the text of a result is JSON; it has the cost, the time, the paths and, for finite width, the slices. -/
theorem C71_result (r : ResultJ) (hr : r.Ok) (s : List ℕ) (h : r.toJson = .ok s) : ∃ j, readJson s = some j ∧ WrittenResult r j := by
  rw [result_toJson] at h
  rcases dumps_reads r.encoder r.default (result_ok hr) with ⟨-, h2⟩ | ⟨v, s', h1, h2, h3⟩
  · rw [h2] at h
    simp at h
  · rw [h2, Except.ok.injEq] at h
    subst h
    exact ⟨v, reads_json h3, result_some h1⟩

/-- C71, errors: writing a result fails, with `TypeError`, exactly if its cost, its time or a sliced index cannot be written. -/
theorem C71_result_errors (r : ResultJ) (hr : r.Ok) (x : AppErr) : r.toJson = .error x ↔ x = .typeError ∧ r.Unwritable := by
  rw [← result_none, result_toJson]
  rcases dumps_reads r.encoder r.default (result_ok hr) with ⟨h1, h2⟩ | ⟨v, s', h1, h2, -⟩
  · rw [h1, h2]
    simp [eq_comm]
  · rw [h1, h2]
    simp

/-- C71, output: the text that `dump_results` returns is one JSON object with the network and the results. -/
theorem C71_output (env : DumpEnv NetworkJ ResultJ) (h1 : env.tnJson = NetworkJ.toJson) (h2 : env.resJson = ResultJ.toJson) (a : DumpArgs) (N : NetworkJ)
    (rs : List ResultJ) (hN : N.Ok) (hr : ∀ r ∈ rs, r.Ok) (s : List ℕ) (h : dumpResults env a N rs = .ok (.text s)) :
    ∃ j js, readJson s = some (.obj [(keyTn, j), (keyRes, .arr js)]) ∧ WrittenNetwork N j ∧ List.Forall₂ WrittenResult rs js := by
  have hd : dumpJson env N rs = .ok s := by
    unfold dumpResults at h
    cases hc : dumpCheck env a with
    | error e => simp [hc] at h
    | ok p =>
      obtain ⟨format, filename, compression⟩ := p
      simp only [hc] at h
      by_cases hco : a.checkOnly = true
      · simp [hco] at h
      · simp only [hco] at h
        by_cases hf : format = jsonText
        · simp only [hf, if_true] at h
          cases hj : dumpJson env N rs with
          | error e => simp [hj, Except.map] at h
          | ok s' =>
            simp only [hj, Except.map] at h
            cases filename with
            | none =>
              simp only [Bool.false_eq_true, if_false, Except.ok.injEq, DumpOut.text.injEq] at h
              rw [h]
            | some f =>
              by_cases hw : env.writable f = false <;> simp [hw] at h
        · simp only [hf, if_false] at h
          cases filename with
          | none => simp at h
          | some f => by_cases hw : env.writable f = false <;> simp [hw] at h
  unfold dumpJson at hd
  rw [h1, NetworkJ.toJson] at hd
  rcases dumps_reads .network N.default (network_ok hN) with ⟨-, k2⟩ | ⟨v, t, k1, k2, k3⟩
  · simp [k2] at hd
  · rcases joinRes_ok env h2 rs hr with ⟨-, i2⟩ | ⟨-, ss, js, i2, i3, i4⟩
    · simp [k2, i2] at hd
    · simp only [k2, i2, Except.ok.injEq] at hd
      refine ⟨v, js, ?_, network_some k1, i4⟩
      rw [← hd]
      exact read_output k3 (reads_arr i3)

/-- C71, output errors: the network and the results cannot be put together exactly if one of them cannot be written. -/
theorem C71_output_errors (env : DumpEnv NetworkJ ResultJ) (h1 : env.tnJson = NetworkJ.toJson) (h2 : env.resJson = ResultJ.toJson) (N : NetworkJ)
    (rs : List ResultJ) (hN : N.Ok) (hr : ∀ r ∈ rs, r.Ok) (x : AppErr) :
    dumpJson env N rs = .error x ↔ x = .typeError ∧ (N.toJson = .error .typeError ∨ ∃ r ∈ rs, r.toJson = .error .typeError) := by
  have hu : (∃ r ∈ rs, r.toJson = .error .typeError) ↔ ∃ r ∈ rs, r.Unwritable := by
    constructor
    · rintro ⟨r, hm, he⟩
      exact ⟨r, hm, ((C71_result_errors r (hr r hm) _).1 he).2⟩
    · rintro ⟨r, hm, he⟩
      exact ⟨r, hm, (C71_result_errors r (hr r hm) _).2 ⟨rfl, he⟩⟩
  rw [hu]
  unfold dumpJson
  rw [h1, NetworkJ.toJson]
  rcases dumps_reads .network N.default (network_ok hN) with ⟨-, k2⟩ | ⟨v, t, k1, k2, k3⟩
  · simp [k2, eq_comm]
  · rcases joinRes_ok env h2 rs hr with ⟨i1, i2⟩ | ⟨i1, ss, js, i2, i3, i4⟩
    · simp only [k2, i2, Except.error.injEq, reduceCtorEq, false_or, i1, and_true, eq_comm]
    · have : ¬ ∃ r ∈ rs, r.Unwritable := by
        rintro ⟨r, hm, he⟩
        exact i1 r hm he
      simp [k2, i2, this]

/-- Tensors with the same indices and dimensions, and the same text for every entry. -/
def SameStored (t u : TensorJ) : Prop :=
  t.inds = u.inds ∧ t.dims = u.dims ∧ (t.array = none ↔ u.array = none) ∧
    ∀ A B, t.array = some A → u.array = some B → ∀ idx, List.Forall₂ (· < ·) idx t.dims → (A.get idx).value .network = (B.get idx).value .network

theorem sameStored_of {t u : TensorJ} {j : Json} (h : WrittenTensor t j) (h' : WrittenTensor u j) (hi : ∀ o ∈ t.inds, o.Plain) (hi' : ∀ o ∈ u.inds, o.Plain)
    (ha : ∀ A, t.array = some A → A.shape = t.dims ∧ ∀ idx, (A.get idx).IsNumber) (ha' : ∀ A, u.array = some A → A.shape = u.dims ∧ ∀ idx, (A.get idx).IsNumber) :
    SameStored t u := by
  obtain ⟨is, a, tg, rfl, h1, h2, -⟩ := h
  obtain ⟨is', a', tg', e, h1', h2', -⟩ := h'
  simp only [Json.obj.injEq, List.cons.injEq, Prod.mk.injEq, Json.arr.injEq, true_and, and_true] at e
  obtain ⟨rfl, hd, rfl, -⟩ := e
  have hdims : t.dims = u.dims := List.map_injective_iff.2 natJson_injective hd
  have key : ∀ {t : TensorJ}, WrittenArray t.array .null → (∀ A, t.array = some A → A.shape = t.dims ∧ ∀ idx, (A.get idx).IsNumber) → t.array = none := by
    intro t h2 ha
    cases hA : t.array with
    | none => rfl
    | some A =>
      exfalso
      have hs := h2.shape A hA
      have hen := h2.entries A hA
      have hnum := (ha A hA).2 []
      cases hsh : A.shape with
      | nil =>
        rw [hsh] at hen
        obtain ⟨v, hv, hv'⟩ := hen [] .nil
        simp only [Json.entry, Option.some.injEq] at hv'
        subst hv'
        cases hA0 : A.get [] <;> simp [hA0, PyJ.IsNumber, PyJ.value] at hnum hv
      | cons d ds =>
        rw [hsh] at hs
        exact hs
  refine ⟨written_plain h1 h1' hi hi', hdims, ⟨fun h => ?_, fun h => ?_⟩, ?_⟩
  · rw [h2.null h] at h2'
    exact key h2' ha'
  · rw [h2'.null h] at h2
    exact key h2 ha
  · intro A B hA hB idx hidx
    obtain ⟨v, hv, hv'⟩ := h2.entries A hA idx (by rw [(ha A hA).1]; exact hidx)
    obtain ⟨w, hw, hw'⟩ := h2'.entries B hB idx (by rw [(ha' B hB).1, ← hdims]; exact hidx)
    rw [hv', Option.some.injEq] at hw'
    rw [hv, hw, hw']

/-- C71, nothing is lost of the tensors (partial: the indices are built from `None`, Booleans, integers, strings and tuples; the tags of the network are
lost, see `C71_violated_tags`): networks with the same text have the same tensors, output and sparse indices. -/
theorem C71_same_partial (N M : NetworkJ) (hN : N.Ok) (hM : M.Ok) (s : List ℕ) (h : N.toJson = .ok s) (h' : M.toJson = .ok s)
    (hp : ∀ K ∈ [N, M], (∀ o ∈ K.output, o.Plain) ∧ (∀ o ∈ K.sparse, o.Plain) ∧ ∀ t ∈ K.tensors, (∀ o ∈ t.inds, o.Plain) ∧
      ∀ A, t.array = some A → A.shape = t.dims ∧ ∀ idx, (A.get idx).IsNumber) :
    List.Forall₂ SameStored N.tensors M.tensors ∧ N.output = M.output ∧ N.sparse = M.sparse := by
  obtain ⟨j, hj, hw⟩ := C71_network N hN s h
  obtain ⟨j', hj', hw'⟩ := C71_network M hM s h'
  rw [hj, Option.some.injEq] at hj'
  subst hj'
  obtain ⟨ts, out, sp, rfl, k1, k2, k3⟩ := hw
  obtain ⟨ts', out', sp', e, k1', k2', k3'⟩ := hw'
  simp only [Json.obj.injEq, List.cons.injEq, Prod.mk.injEq, Json.arr.injEq, true_and, and_true] at e
  obtain ⟨rfl, rfl, rfl⟩ := e
  obtain ⟨p1, p2, p3⟩ := hp N (by simp)
  obtain ⟨q1, q2, q3⟩ := hp M (by simp)
  refine ⟨?_, written_plain k2 k2' p1 q1, written_plain k3 k3' p2 q2⟩
  clear hp hN hM h h' hj
  revert p3 q3
  generalize N.tensors = l at k1 ⊢
  generalize M.tensors = l' at k1' ⊢
  induction k1 generalizing l' with
  | nil =>
    cases k1'
    intros
    exact .nil
  | @cons t j ts js htj _ ih =>
    cases k1' with
    | @cons u _ us _ huj hus =>
      intro p3 q3
      refine .cons (sameStored_of htj huj (p3 t (by simp)).1 (q3 u (by simp)).1 (p3 t (by simp)).2 (q3 u (by simp)).2)
        (ih us hus (fun t ht => p3 t (List.mem_cons_of_mem _ ht)) fun t ht => q3 t (List.mem_cons_of_mem _ ht))

theorem append_space {a b c d : List ℕ} (ha : 32 ∉ a) (hc : 32 ∉ c) (h : a ++ 32 :: b = c ++ 32 :: d) : a = c ∧ b = d := by
  induction a generalizing c with
  | nil =>
    cases c with
    | nil => simpa using h
    | cons x c =>
      simp only [List.nil_append, List.cons_append, List.cons.injEq] at h
      simp [← h.1] at hc
  | cons y a ih =>
    cases c with
    | nil =>
      simp only [List.nil_append, List.cons_append, List.cons.injEq] at h
      simp [h.1] at ha
    | cons x c =>
      simp only [List.cons_append, List.cons.injEq] at h
      obtain ⟨h1, h2⟩ := ih (by simp at ha; tauto) (by simp at hc; tauto) h.2
      exact ⟨by rw [h.1, h1], h2⟩

/-- C71, entries: two floats, integers, Booleans or complex numbers with the same text are the same; the value of a token of an integer is the integer. -/
theorem C71_entries (e : EncoderJ) : (∀ r r', (PyJ.float r).value e = (PyJ.float r').value e → r = r') ∧
    (∀ z z', (PyJ.int z).value e = (PyJ.int z').value e → z = z') ∧ (∀ b b', (PyJ.bool b).value e = (PyJ.bool b').value e → b = b') ∧
    (∀ re im re' im', 32 ∉ re → 32 ∉ re' → (PyJ.complex re im).value .network = (PyJ.complex re' im').value .network → re = re' ∧ im = im') ∧
    ∀ z : ℤ, (PyJ.int z).value e = some (.num (intText z)) ∧ intValue (intText z) = z := by
  refine ⟨?_, ?_, ?_, ?_, ?_⟩
  · intro r r' h
    simpa [PyJ.value] using h
  · intro z z' h
    simp only [PyJ.value, Option.some.injEq, Json.num.injEq] at h
    exact intText_injective h
  · intro b b' h
    simpa [PyJ.value] using h
  · intro re im re' im' h1 h2 h
    simp only [PyJ.value, if_true, Option.some.injEq, Json.str.injEq, List.append_assoc, List.cons_append, List.nil_append] at h
    obtain ⟨h3, h4⟩ := append_space h1 h2 h
    refine ⟨h3, ?_⟩
    simpa using h4
  · exact fun z => ⟨rfl, intValue_intText z⟩

/-! ## Concrete networks and violations -/

/-- `"x"` -/
def indX : PyJ := .str [120]

/-- A vector with the entries `1.5` and `-2e-05`, and a network of it. -/
def vecJ (tags : List (KeyJ × PyJ)) : TensorJ := ⟨[indX], [2], some ⟨[2], fun k => if k = 0 then .float [49, 46, 53] else .float [45, 50, 101, 45, 48, 53]⟩, tags⟩

def netJ (tags : List (KeyJ × PyJ)) : NetworkJ := ⟨[vecJ []], [indX], [], tags⟩

theorem charOk_small {s : List ℕ} (h : ∀ c ∈ s, c < 55296) : TextOk s := fun c hc => .inl (h c hc)

theorem vecJ_ok : (vecJ []).Ok where
  inds := by
    intro o ho
    simp only [vecJ, List.mem_singleton] at ho
    subst ho
    exact charOk_small (by decide)
  entries := by
    intro A hA idx hidx
    simp only [vecJ, Option.some.injEq] at hA
    subst hA
    simp only [NDArray.get]
    split
    · exact .inl (by decide)
    · exact .inl (by decide)
  tags := by simp [vecJ]

theorem netJ_ok (tags : List (KeyJ × PyJ)) : (netJ tags).Ok where
  tensors := by
    intro t ht
    simp only [netJ, List.mem_singleton] at ht
    subst ht
    exact vecJ_ok
  output := by
    intro o ho
    simp only [netJ, List.mem_singleton] at ho
    subst ho
    exact charOk_small (by decide)
  sparse := by simp [netJ]

/-- `{"tensors": [{"inds": ["x"], "dims": [2], "array": [1.5, -2e-05], "tags": {}}], "output_inds": ["x"], "sparse_inds": []}` -/
example : (netJ []).toJson.toOption = some ("{\"tensors\": [{\"inds\": [\"x\"], \"dims\": [2], \"array\": [1.5, -2e-05], \"tags\": {}}], \"output_inds\": [\"x\"], \"sparse_inds\": []}".toList.map Char.toNat) := by
  decide +kernel

/-- A result with cost 12, and one with a cost given as a `Decimal`. -/
def resJ (cost : PyJ) (dcosts : List PyJ) : ResultJ := ⟨cost, .float [48, 46, 53], [(0, 1)], dcosts, [[(0, 1)], []], none⟩

/-- `{"cost": 12, "runtime_s": 0.5, "path": [[0, 1]], "disconnected_paths": [[[0, 1]], []]}` -/
example : (resJ (.int 12) [.int 12, .int 0]).toJson.toOption =
    some ("{\"cost\": 12, \"runtime_s\": 0.5, \"path\": [[0, 1]], \"disconnected_paths\": [[[0, 1]], []]}".toList.map Char.toNat) := by
  decide +kernel

theorem resJ_ok : (resJ (.int 12) []).Ok where
  cost := trivial
  runtime := .inl (by decide)
  slices := by
    intro ds sl h
    simp [resJ] at h

/-- The encoders in `dump_results`. -/
def jsonEnv : DumpEnv NetworkJ ResultJ := ⟨id, fun _ => true, fun _ => false, fun _ => true, id, id, id, fun _ => [], NetworkJ.toJson, ResultJ.toJson⟩

/-- `dump_results(tn, [res], output_format='json')`: the hypotheses of `C71_output` hold, and the text is
`{"tn" : {"tensors": ...}, "res" : [{"cost": 12, ...}]}`. -/
example : ∃ s j js, dumpResults jsonEnv { format := some jsonText } (netJ []) [resJ (.int 12) []] = .ok (.text s) ∧
    readJson s = some (.obj [(keyTn, j), (keyRes, .arr js)]) ∧ WrittenNetwork (netJ []) j ∧ List.Forall₂ WrittenResult [resJ (.int 12) []] js := by
  obtain ⟨s, hs⟩ : ∃ s, dumpResults jsonEnv { format := some jsonText } (netJ []) [resJ (.int 12) []] = .ok (.text s) := ⟨_, rfl⟩
  obtain ⟨j, js, h⟩ := C71_output jsonEnv rfl rfl _ _ _ (netJ_ok []) (by simpa using resJ_ok) s hs
  exact ⟨s, j, js, hs, h⟩

/-- C71, violated: the costs of the parts are not in the text. -/
theorem C71_violated_costs (cost : PyJ) (c c' : List PyJ) : (resJ cost c).toJson = (resJ cost c').toJson := rfl

/-- C71, violated: the tags of the network are not in the text. -/
theorem C71_violated_tags (m m' : List (KeyJ × PyJ)) : (netJ m).toJson = (netJ m').toJson := rfl

/-- C71, violated: complex entries are written as strings such as `"1.0 + 2.0j"`, and so are costs that are `Decimal`s, as those of the apps are. -/
theorem C71_violated_numbers (re im s : List ℕ) : (PyJ.complex re im).value .network = some (.str (re ++ [32, 43, 32] ++ im ++ [106])) ∧
    (PyJ.decimal s).value .infinite = some (.str s) ∧ (PyJ.decimal s).value .finite = some (.str s) := ⟨rfl, rfl, rfl⟩

/-- C71, violated: different indices can have the same text: a tuple and a frozenset, or a tag `1` and a tag `'1'`. -/
theorem C71_violated_same : PyJ.dumps .network (.tuple [.int 1]) = PyJ.dumps .network (.frozenset [.int 1]) ∧
    PyJ.dumps .network (.dict [(.int 1, .none)]) = PyJ.dumps .network (.dict [(.str [49], .none)]) :=
  ⟨rfl, rfl⟩

/-- C71, errors: an index that is neither standard nor a qubit of cirq, such as a qubit of qiskit, or a slice that is complex cannot be written. -/
example : (NetworkJ.mk [⟨[.other], [2], none, []⟩] [] [] []).toJson = .error .typeError ∧
    (ResultJ.mk (.int 1) (.int 1) [] [] [] (some ([], [.complex [49] [49]]))).toJson = .error .typeError := ⟨rfl, rfl⟩

end TNCO
