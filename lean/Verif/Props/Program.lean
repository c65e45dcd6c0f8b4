import Verif.Lemmas.ProgramRun

/-!
# C74: from a text to the output of the program
-/

namespace TNCO

/-! ## The command line -/

theorem fst_zip {α β : Type} (l : List α) (m : List β) : (l.zip m).map Prod.fst = l.take m.length := by
  induction l generalizing m with
  | nil => simp
  | cons a l ih =>
    cases m with
    | nil => simp
    | cons b m => simp [ih]

/-- C74, command line: `Main` passes on each argument as it is, except that no format becomes JSON, and drops those that are too many; with fewer arguments than up to
the format, it fails. -/
theorem C74_main {V : Type} (json : V) (args : List (Option V)) :
    (args.length < 6 → mainParams json args = .error .keyError) ∧
    (6 ≤ args.length → ∃ m, mainParams json args = .ok m ∧ m.map Prod.fst = optimizerParams.take args.length ∧
      ∀ (i : ℕ) p, m[i]? = some p → ∃ v, args[i]? = some v ∧ p.2 = if i = 5 then some (v.getD json) else v) := by
  constructor
  · intro h
    rcases args with _ | ⟨a, _ | ⟨b, _ | ⟨c, _ | ⟨d, _ | ⟨e, _ | ⟨f, l⟩⟩⟩⟩⟩⟩ <;> first | rfl | (simp at h; omega)
  · intro h
    rcases args with _ | ⟨a, _ | ⟨b, _ | ⟨c, _ | ⟨d, _ | ⟨e, _ | ⟨f, l⟩⟩⟩⟩⟩⟩ <;> simp only [List.length_cons, List.length_nil] at h <;> try omega
    have key : mainParams json (a :: b :: c :: d :: e :: f :: l) = .ok ([("method", a), ("max_width", b), ("n_jobs", c), ("width_type", d), ("cost_type", e),
        ("output_format", some (f.getD json))] ++ (optimizerParams.drop 6).zip l) := by
      cases f with
      | some f => rfl
      | none =>
        have hz : ((optimizerParams.drop 6).zip l).map (fun e => if e.1 = "output_format" then (e.1, some json) else e) = (optimizerParams.drop 6).zip l := by
          conv_rhs => rw [← List.map_id ((optimizerParams.drop 6).zip l)]
          refine List.map_congr_left fun e he => ?_
          have : e.1 ∈ optimizerParams.drop 6 := (List.of_mem_zip he).1
          rw [if_neg]
          · rfl
          · intro h0
            rw [h0] at this
            revert this
            decide
        conv_rhs => rw [← hz]
        rfl
    refine ⟨_, key, ?_, ?_⟩
    · have e2 : optimizerParams.take (a :: b :: c :: d :: e :: f :: l).length = optimizerParams.take 6 ++ (optimizerParams.drop 6).take l.length := rfl
      rw [List.map_append, e2, fst_zip]; rfl
    · intro i p hp
      match i with
      | 0 | 1 | 2 | 3 | 4 | 5 => cases hp; exact ⟨_, rfl, rfl⟩
      | i + 6 =>
        have h1 : ((optimizerParams.drop 6).zip l)[i]? = some p := hp
        have h2 := (List.getElem?_zip_eq_some.1 h1).2
        exact ⟨p.2, h2, by simp⟩

/-! ## What is assumed -/

/-- The rows of a text: its lines with a number and names, in order. -/
def IsText (digit : ℕ → Option ℕ) (text : List ℕ) (rows : List (ℕ × List (List ℕ))) : Prop := ∃ ls, IsLines text ls ∧ IsRows digit ls rows ∧ ∃ l ∈ ls, l ≠ []

section
variable {σ W τ ρ P V L : Type} [Zero W] [Add W] [LT W] [DecidableLT W] [LinearOrder P] [AddCommGroup L] [LinearOrder L]

/-- The surroundings are in order, for networks with at most `n` tensors and indices together. -/
structure ProgEnv.Ok (E : ProgEnv σ W τ ρ P V L) (n : ℕ) : Prop where
  digits : DigitsOk E.digit
  upper : UpperOk E.digit E.upper
  load : E.load.Ok
  loadFuel : n < E.load.fuel
  rng : E.sa.rng.Ok
  enumN : EnumOk E.sa.enumN
  enum : EnumOk E.sa.enum
  fuel : n < E.sa.fuel
  log2 : ∀ n, 0 ≤ E.log2W n
  tnJson : E.after.tnJson = NetworkJ.toJson
  resJson : E.after.resJson = ResultJ.toJson
  decimal : ∀ c, TextOk (E.decimal c)
  time : ∀ k, (E.time k).Ok

/-- What is assumed of the text: it has rows, every row has a positive dimension and the name of a tensor, no row has a name twice. -/
structure TextInput (E : ProgEnv σ W τ ρ P V L) (a : ProgArgs) (text : List ℕ) (rows : List (ℕ × List (List ℕ))) : Prop where
  env : E.Ok ((textNames rows a.outTok a.sparseTok).length + rows.length)
  parsed : IsText E.digit text rows
  chars : TextOk text
  rows : RowsFit rows a.outTok a.sparseTok

variable {E : ProgEnv σ W τ ρ P V L} {a : ProgArgs} {text : List ℕ} {rows : List (ℕ × List (List ℕ))} {sched : List Event} {sys sys' : Sys}

omit [LinearOrder P] in
theorem loadText_rows (h : TextInput E a text rows) :
    loadText E.digit E.upper E.other E.load a.outTok a.sparseTok text = loadRowsNet E.load a.outTok a.sparseTok rows := by
  unfold loadText
  rw [(C50_text h.env.digits h.env.upper text rows).2 h.parsed]

/-- C74, loading: the network for the optimizer is the network of the text after the contractions of a path; these are recorded, no tensor they make is wider than
`fuse`, and there are none if there are sparse indices; dimensions, output and sparse indices and tags are those of the text. -/
theorem C74_load (h : TextInput E a text rows) : ∃ N path F, loadText E.digit E.upper E.other E.load a.outTok a.sparseTok text = some (.ok N) ∧
    TextLoaded rows a.outTok a.sparseTok E.load.log2 E.load.fuse N path F := by
  rw [loadText_rows h]
  exact loadRows_loaded h.env.load h.rows h.env.loadFuel

omit [Zero W] [Add W] [LT W] [DecidableLT W] [LinearOrder P] in
theorem TextInput.names (h : TextInput E a text rows) : ∀ t ∈ textNames rows a.outTok a.sparseTok, TextOk t := by
  intro t ht c hc
  obtain ⟨⟨r, hr, htr⟩, -⟩ := textNames_mem.1 ht
  obtain ⟨ls, h1, h2, -⟩ := h.parsed
  obtain ⟨l, hl, hcl⟩ := rows_chars h2 r hr t htr c hc
  exact h.chars c (lines_chars h1 l hl c hcl)

omit [Zero W] [Add W] [LT W] [DecidableLT W] [LinearOrder P] [AddCommGroup L] [LinearOrder L] in
/-- Results of a run without exceptions. -/
theorem runApp_ok {R : Type} {before after : DumpEnv NetworkJ ResultJ} {dump : DumpArgs} {loaded : Option (Except PyErr (ArrNet ℕ ℤ TagsJ))}
    {search : NetworkRec ℕ → Sys → Sys × Option (Except (ParErr PyErr) (List R))} {enum : Finset ℕ → List ℕ} {toJ : ℕ → R → ResultJ}
    {o : DumpOut NetworkJ ResultJ} (h : runApp before after dump loaded search enum toJ sys = (sys', some (.ok o))) :
    ∃ N rs, loaded = some (.ok N) ∧ search N.toRec sys = (sys', some (.ok rs)) ∧
      dumpResults after { dump with checkOnly := false, extra := false } (N.toJ enum) (rs.zipIdx.map fun r => toJ r.2 r.1) = .ok o := by
  unfold runApp at h
  split at h
  · cases h
  · split at h
    · cases h
    · cases h
    · next N =>
      split at h
      · cases h
      · cases h
      · next rs hs =>
        split at h
        · cases h
        · next o' ho =>
          simp only [Prod.mk.injEq, Option.some.injEq, Except.ok.injEq] at h
          obtain ⟨rfl, rfl⟩ := h
          exact ⟨N, rs, rfl, hs, ho⟩

/-- What is written if JSON is asked for. -/
theorem json_out {after : DumpEnv NetworkJ ResultJ} (h1 : after.tnJson = NetworkJ.toJson) (h2 : after.resJson = ResultJ.toJson) {d : DumpArgs}
    (hw : d.wants after jsonText) {M : NetworkJ} (hM : M.Ok) {rs : List ResultJ} (hr : ∀ r ∈ rs, r.Ok) {o : DumpOut NetworkJ ResultJ}
    (h : dumpResults after { d with checkOnly := false, extra := false } M rs = .ok o) :
    ∃ s j js, TextOut after d s o ∧ readJson s = some (.obj [(keyTn, j), (keyRes, .arr js)]) ∧ WrittenNetwork M j ∧ List.Forall₂ WrittenResult rs js := by
  have hraw : ¬ d.wants after rawText := fun hw' => absurd (wants_unique after d hw hw') (by decide)
  obtain ⟨hok, h⟩ := (C50_dump_partial after _ rfl M rs o).1 h
  have key : ∃ s, IsDumpJson after M rs s ∧ TextOut after d s o := by
    rcases h with ⟨hf, ⟨hw', -⟩ | ⟨-, s, hs, ho⟩⟩ | ⟨f, b, hf, hwr, hb, ho⟩
    · exact absurd hw' hraw
    · exact ⟨s, hs, Or.inl ⟨hf, ho⟩⟩
    · rcases hb with ⟨-, s, hs, rfl⟩ | ⟨hw', -⟩
      · exact ⟨s, hs, Or.inr ⟨f, hf, hwr, ho⟩⟩
      · exact absurd hw' hraw
  obtain ⟨s, hs, ho⟩ := key
  obtain ⟨j, js, hj⟩ := C71_output after h1 h2 { d with checkOnly := false, extra := false, filename := none } M rs hM hr s
    ((C50_dump_partial after _ rfl M rs _).2 ⟨⟨hok.extra, hok.format, by simp, hok.compression⟩, Or.inl ⟨rfl, Or.inr ⟨hw, s, hs, rfl⟩⟩⟩)
  exact ⟨s, j, js, ho, hj⟩

theorem forall₂_zipIdx {R : Type} {S : R → Json → Prop} {f : ℕ → R → ResultJ} (hf : ∀ k r j, WrittenResult (f k r) j → S r j) (rs : List R) (n : ℕ) {js : List Json}
    (h : List.Forall₂ WrittenResult ((rs.zipIdx n).map fun r => f r.2 r.1) js) : List.Forall₂ S rs js := by
  induction rs generalizing n js with
  | nil => cases h; exact .nil
  | cons r rs ih =>
    rw [List.zipIdx_cons, List.map_cons] at h
    cases h with
    | cons h1 h2 => exact .cons (hf _ _ _ h1) (ih (n + 1) h2)

omit [DecidableLT W] [LinearOrder P] in
theorem TextInput.sa (h : TextInput E a text rows) {N : ArrNet ℕ ℤ TagsJ} {path : List (ℕ × ℕ)} {F : List Term}
    (hl : TextLoaded rows a.outTok a.sparseTok E.load.log2 E.load.fuse N path F) : E.sa.Ok N.toRec :=
  ⟨h.env.rng, h.env.enumN, h.env.enum, by rw [toRec_tsInds]; exact lt_of_le_of_lt (hl.size h.rows).1 h.env.fuel⟩

omit [DecidableLT W] [LinearOrder P] in
/-- C74, search: what is searched is the loaded network, with the dimensions of the text on every axis. -/
theorem C74_record {N : ArrNet ℕ ℤ TagsJ} {path : List (ℕ × ℕ)} {F : List Term}
    (hl : TextLoaded rows a.outTok a.sparseTok E.load.log2 E.load.fuse N path F) :
    N.toRec.tsInds = N.tsInds ∧ N.toRec.output = N.output ∧ N.toRec.sparse = N.sparse ∧ ∀ t ∈ N.toRec.tensors, t.dims = t.inds.map (textDim rows) := by
  refine ⟨toRec_tsInds N, rfl, rfl, fun t ht => ?_⟩
  obtain ⟨xs, hxs, rfl⟩ := List.mem_map.1 ht
  refine List.map_congr_left fun x hx => ?_
  rw [hl.dims x (List.mem_flatten.2 ⟨xs, hxs, hx⟩)]
  rfl

/-- C74, output (infinite memory): what a reader of the JSON text finds is the network of the text after some contractions, and for every result its cost and paths. There
is one result for each seed, and they are sorted by cost. -/
theorem C74_infinite (h : TextInput E a text rows) (hm : finiteWidthModule a.maxWidth = false) {o : DumpOut NetworkJ ResultJ}
    (ho : program E a text sched sys = (sys', some (.ok o))) :
    ∃ N path F rs, TextLoaded rows a.outTok a.sparseTok E.load.log2 E.load.fuse N path F ∧
      optimizeInfWith (costPrinter a.fixed) E.sa E.par N.toRec a.betas a.nSteps a.nProjs a.nJobs a.seeds sched sys = (sys', some (.ok rs)) ∧
      rs.length = a.seeds.length ∧ (rs.Pairwise fun r r' => r.cost ≤ r'.cost) ∧
      (a.dump.wants E.after jsonText → ∃ s, TextOut E.after a.dump s o ∧
        ResultsText (TextWritten rows (textNames rows a.outTok a.sparseTok) N F) (InfWritten E.decimal) rs s) := by
  obtain ⟨N, path, F, hN, hl⟩ := C74_load h
  unfold program at ho
  split at ho
  · cases ho
  · rw [hm] at ho
    simp only [Bool.false_eq_true, if_false] at ho
    obtain ⟨N', rs, h1, h2, h3⟩ := runApp_ok ho
    rw [hN] at h1
    cases h1
    obtain ⟨k1, rs0, k2, k3⟩ := C72_improves a.fixed E.sa E.par N.toRec a.betas a.nSteps a.nProjs a.nJobs a.seeds sched sys sys' (h.sa hl) (hl.plain h.rows) rs h2
    refine ⟨N, path, F, rs, hl, h2, by rw [k2.length_eq, k3.length_eq], k1, fun hw => ?_⟩
    obtain ⟨s, j, js, g1, g2, g3, g4⟩ := json_out h.env.tnJson h.env.resJson hw (hl.toJ_ok h.names E.load.enum) (fun r hr => by
      obtain ⟨q, -, rfl⟩ := List.mem_map.1 hr
      exact infResultJ_ok h.env.decimal (h.env.time _) _) h3
    exact ⟨s, g1, j, js, g2, hl.written h.env.load.enum g3, forall₂_zipIdx (S := InfWritten E.decimal) (f := fun k r => infResultJ E.part E.decimal (E.time k) r) (fun _ _ _ hj => inf_written hj) rs 0 g4⟩

/-- C74, output (finite width): the same, with the slices. -/
theorem C74_finite [IsOrderedAddMonoid L] (h : TextInput E a text rows) (hm : finiteWidthModule a.maxWidth = true) (hus : a.updateSlices ≠ 0) {o : DumpOut NetworkJ ResultJ}
    (ho : program E a text sched sys = (sys', some (.ok o))) :
    ∃ N path F rs, TextLoaded rows a.outTok a.sparseTok E.load.log2 E.load.fuse N path F ∧
      optimizeFwWith (costPrinter a.fixed) E.sa E.par N.toRec E.log2W (E.width a.maxWidth) a.betas a.nSteps a.nProjs a.updateSlices a.nJobs a.seeds sched sys =
        (sys', some (.ok rs)) ∧
      rs.length = a.seeds.length ∧ (rs.Pairwise fun r r' => r.cost ≤ r'.cost) ∧
      (a.dump.wants E.after jsonText → ∃ s, TextOut E.after a.dump s o ∧
        ResultsText (TextWritten rows (textNames rows a.outTok a.sparseTok) N F) (FwWritten E.decimal) rs s) := by
  obtain ⟨N, path, F, hN, hl⟩ := C74_load h
  unfold program at ho
  split at ho
  · cases ho
  · obtain ⟨N', rs, h1, h2, h3⟩ := runApp_ok ho
    rw [hN] at h1
    cases h1
    obtain ⟨k1, rs0, k2, k3⟩ := C72_improves_width a.fixed E.sa E.par N.toRec a.betas a.nSteps a.nProjs a.nJobs a.seeds sched sys sys' E.log2W h.env.log2
      (E.width a.maxWidth) a.updateSlices hus (h.sa hl) (hl.plain h.rows) rs h2
    refine ⟨N, path, F, rs, hl, h2, by rw [k2.length_eq, k3.length_eq], k1, fun hw => ?_⟩
    obtain ⟨s, j, js, g1, g2, g3, g4⟩ := json_out h.env.tnJson h.env.resJson hw (hl.toJ_ok h.names E.load.enum) (fun r hr => by
      obtain ⟨q, -, rfl⟩ := List.mem_map.1 hr
      exact fwResultJ_ok h.env.decimal _ (h.env.time _) _) h3
    exact ⟨s, g1, j, js, g2, hl.written h.env.load.enum g3, forall₂_zipIdx (S := FwWritten E.decimal) (f := fun k r => fwResultJ E.part E.decimal E.load.enum (E.time k) r) (fun _ _ _ hj => fw_written h.env.load.enum hj) rs 0 g4⟩

/-! ## The objects -/

omit [Zero W] [Add W] [LT W] [DecidableLT W] [LinearOrder P] [AddCommGroup L] [LinearOrder L] in
/-- What is written if the objects are asked for. -/
theorem raw_out {after : DumpEnv NetworkJ ResultJ} {d : DumpArgs} (hw : d.wants after rawText) {M : NetworkJ} {rs : List ResultJ} {o : DumpOut NetworkJ ResultJ}
    (h : dumpResults after { d with checkOnly := false, extra := false } M rs = .ok o) : ObjectOut after d (M, rs) o := by
  have hjson : ¬ d.wants after jsonText := fun hw' => absurd (wants_unique after d hw hw') (by decide)
  obtain ⟨-, ⟨hf, ⟨-, ho⟩ | ⟨hw', -⟩⟩ | ⟨f, b, hf, hwr, ⟨hw', -⟩ | ⟨-, rfl⟩, ho⟩⟩ := (C50_dump_partial after _ rfl M rs o).1 h
  · exact Or.inl ⟨hf, ho⟩
  · exact absurd hw' hjson
  · exact absurd hw' hjson
  · exact Or.inr ⟨f, hf, hwr, ho⟩

theorem loaded_object {N : ArrNet ℕ ℤ TagsJ} {path : List (ℕ × ℕ)} {F : List Term} {outTok sparseTok : List ℕ} {log2 : ℕ → W} {fuse : Option W}
    (hl : TextLoaded rows outTok sparseTok log2 fuse N path F) {enum : Finset ℕ → List ℕ} (he : EnumOk enum) :
    TextObject rows (textNames rows outTok sparseTok) N path F (N.toJ enum) where
  tensors := by
    rw [hl.toJ_tensors enum, List.forall₂_map_right_iff]
    exact List.forall₂_same.2 fun e _ => ⟨rfl, rfl, rfl, rfl⟩
  output := ⟨enum N.output, rfl, (he _).1, (he _).2⟩
  sparse := ⟨enum N.sparse, rfl, (he _).1, (he _).2⟩
  tags := by
    rcases hl.recorded with h | ⟨h, rfl⟩
    · right
      simp only [ArrNet.toJ, h]
      rfl
    · left
      simp [ArrNet.toJ, h]

theorem cost_object (decimal : ℚ → List ℕ) (paths : List (List (ℕ × ℕ))) (c : ℚ) : costObject decimal paths c (costJ decimal paths c) := by
  unfold costJ
  split
  · next hp => exact Or.inl ⟨fun p hp' => by simpa using List.all_eq_true.1 hp p hp', rfl⟩
  · next hp => exact Or.inr ⟨by simpa using hp, rfl⟩

theorem part_costs (decimal : ℚ → List ℕ) (ps : List (List (ℕ × ℕ))) (cs : List ℚ) :
    List.Forall₂ (fun e o => costObject decimal [e.1] e.2 o) (ps.zip cs) (List.zipWith (partCostJ decimal) ps cs) := by
  induction ps generalizing cs with
  | nil => simp
  | cons p ps ih =>
    cases cs with
    | nil => simp
    | cons c cs =>
      rw [List.zip_cons_cons, List.zipWith_cons_cons]
      refine .cons ?_ (ih cs)
      have e : partCostJ decimal p c = costJ decimal [p] c := by simp [partCostJ, costJ]
      rw [e]
      exact cost_object _ _ _

theorem zipIdx_forall₂ {R : Type} {S : R → ResultJ → Prop} {f : ℕ → R → ResultJ} (hf : ∀ k r, S r (f k r)) (rs : List R) (n : ℕ) :
    List.Forall₂ S rs ((rs.zipIdx n).map fun r => f r.2 r.1) := by
  induction rs generalizing n with
  | nil => exact .nil
  | cons r rs ih =>
    rw [List.zipIdx_cons, List.map_cons]
    exact .cons (hf _ _) (ih (n + 1))

/-- C74, objects (infinite memory): the other output is the network of the text with the path of its contractions, and for every result its cost, its paths and the costs of
the parts. -/
theorem C74_infinite_object (h : TextInput E a text rows) (hm : finiteWidthModule a.maxWidth = false) (hw : a.dump.wants E.after rawText) {o : DumpOut NetworkJ ResultJ}
    (ho : program E a text sched sys = (sys', some (.ok o))) :
    ∃ N path F rs M qs, TextLoaded rows a.outTok a.sparseTok E.load.log2 E.load.fuse N path F ∧
      optimizeInfWith (costPrinter a.fixed) E.sa E.par N.toRec a.betas a.nSteps a.nProjs a.nJobs a.seeds sched sys = (sys', some (.ok rs)) ∧
      ObjectOut E.after a.dump (M, qs) o ∧ TextObject rows (textNames rows a.outTok a.sparseTok) N path F M ∧ List.Forall₂ (InfObject E.part E.decimal) rs qs := by
  obtain ⟨N, path, F, hN, hl⟩ := C74_load h
  unfold program at ho
  split at ho
  · cases ho
  · rw [hm] at ho
    simp only [Bool.false_eq_true, if_false] at ho
    obtain ⟨N', rs, h1, h2, h3⟩ := runApp_ok ho
    rw [hN] at h1
    cases h1
    exact ⟨N, path, F, rs, _, _, hl, h2, raw_out hw h3, loaded_object hl h.env.load.enum,
      zipIdx_forall₂ (f := fun k r => infResultJ E.part E.decimal (E.time k) r) (fun k r => ⟨cost_object _ _ _, rfl, rfl, part_costs _ _ _, rfl⟩) rs 0⟩

/-- C74, objects (finite width): the same, with the slices. -/
theorem C74_finite_object (h : TextInput E a text rows) (hm : finiteWidthModule a.maxWidth = true) (hw : a.dump.wants E.after rawText) {o : DumpOut NetworkJ ResultJ}
    (ho : program E a text sched sys = (sys', some (.ok o))) :
    ∃ N path F rs M qs, TextLoaded rows a.outTok a.sparseTok E.load.log2 E.load.fuse N path F ∧
      optimizeFwWith (costPrinter a.fixed) E.sa E.par N.toRec E.log2W (E.width a.maxWidth) a.betas a.nSteps a.nProjs a.updateSlices a.nJobs a.seeds sched sys =
        (sys', some (.ok rs)) ∧
      ObjectOut E.after a.dump (M, qs) o ∧ TextObject rows (textNames rows a.outTok a.sparseTok) N path F M ∧ List.Forall₂ (FwObject E.part E.decimal) rs qs := by
  obtain ⟨N, path, F, hN, hl⟩ := C74_load h
  unfold program at ho
  split at ho
  · cases ho
  · obtain ⟨N', rs, h1, h2, h3⟩ := runApp_ok ho
    rw [hN] at h1
    cases h1
    refine ⟨N, path, F, rs, _, _, hl, h2, raw_out hw h3, loaded_object hl h.env.load.enum,
      zipIdx_forall₂ (f := fun k r => fwResultJ E.part E.decimal E.load.enum (E.time k) r) (fun k r => ⟨cost_object _ _ _, rfl, rfl, part_costs _ _ _,
        r.slicesList.map E.load.enum, E.load.enum r.slices, ?_, (h.env.load.enum _).1, (h.env.load.enum _).2, ?_⟩) rs 0⟩
    · simp [fwResultJ]
    · rw [List.forall₂_map_right_iff]
      exact List.forall₂_same.2 fun S _ => h.env.load.enum S

/-! ## What the results are worth -/

section
variable {N : ArrNet ℕ ℤ TagsJ} {path : List (ℕ × ℕ)} {F : List Term}

omit [DecidableLT W] in
/-- C74, path and cost (infinite memory): the recorded path followed by the path of a result contracts all tensors of the text; if they are connected, its cost is that of the
recorded path plus the reported cost, up to the digits that are not printed. -/
theorem C74_infinite_path (h : TextInput E a text rows) (hl : TextLoaded rows a.outTok a.sparseTok E.load.log2 E.load.fuse N path F) {rs : List (InfResultOf ℚ)}
    (hs : optimizeInfWith (costPrinter a.fixed) E.sa E.par N.toRec a.betas a.nSteps a.nProjs a.nJobs a.seeds sched sys = (sys', some (.ok rs))) :
    ∀ r ∈ rs, (∃ u, replay (initTerms (textNames rows a.outTok a.sparseTok).length) (path ++ r.path) = some [u]) ∧
      (AllConnected (textTensors rows a.outTok a.sparseTok) → ∃ c : ℕ,
        textCost rows a.outTok a.sparseTok a.nProjs ∅ (path ++ r.path) = textCost rows a.outTok a.sparseTok a.nProjs ∅ path + c ∧
        NearestDec (reportDigits a.fixed) (c : ℤ) r.cost) := by
  intro r hr
  obtain ⟨-, h2, -, -, h5⟩ := C72_cost a.fixed E.sa E.par N.toRec a.betas a.nSteps a.nProjs a.nJobs a.seeds sched sys sys' (h.sa hl) (hl.plain h.rows) rs hs r hr
  rw [toRec_tsInds] at h2
  obtain ⟨u, hu⟩ := h2 (hl.size h.rows).2
  refine ⟨⟨u.over F, ?_⟩, fun hc => ?_⟩
  · rw [← textTensors_length]
    exact (hl.left.over hu).1
  · obtain ⟨c, hc'⟩ := Int.eq_ofNat_of_zero_le (pathCost_nonneg N.toRec ⟨some N.toRec.sparse, a.nProjs⟩ ∅ r.path)
    have h6 := h5 (by rw [toRec_tsInds]; exact hl.left.connected hc)
    rw [hc'] at h6
    exact ⟨c, by rw [hl.cost a.nProjs (by simp) hu, hc'], h6⟩

omit [DecidableLT W] in
/-- The slices of a result are indices of the network, and its path fits. -/
theorem fw_found [IsOrderedAddMonoid L] (h : TextInput E a text rows) (hus : a.updateSlices ≠ 0)
    (hl : TextLoaded rows a.outTok a.sparseTok E.load.log2 E.load.fuse N path F) {rs : List (FwResultOf ℚ ℕ)}
    (hs : optimizeFwWith (costPrinter a.fixed) E.sa E.par N.toRec E.log2W (E.width a.maxWidth) a.betas a.nSteps a.nProjs a.updateSlices a.nJobs a.seeds sched sys =
      (sys', some (.ok rs))) :
    ∀ r ∈ rs, (∃ u, replay (initTerms N.tsInds.length) r.path = some [u]) ∧ (∀ x ∈ r.slices, x ∈ N.tsInds.flatten) ∧
      (AllConnected (textTensors rows a.outTok a.sparseTok) →
        NearestDec (reportDigits a.fixed) (pathCost (N.toRec.cost ⟨some N.toRec.sparse, a.nProjs⟩) N.toRec.tsInds N.toRec.output r.slices r.path : ℤ) r.cost ∧
        PathFits (nameWidth E.log2W (textDim rows) (textInds rows a.sparseTok).toFinset (a.nProjs.getD 0).toNat) (E.width a.maxWidth) N.tsInds N.output r.slices
          r.path) := by
  intro r hr
  obtain ⟨-, h2, -, h5⟩ := C72_cost_width a.fixed E.sa E.par N.toRec a.betas a.nSteps a.nProjs a.nJobs a.seeds sched sys sys' E.log2W h.env.log2 (E.width a.maxWidth)
    a.updateSlices hus (h.sa hl) (hl.plain h.rows) rs hs r hr
  rw [toRec_tsInds] at h2
  refine ⟨h2 (hl.size h.rows).2, ?_, fun hc => ?_⟩
  · obtain ⟨rs1, rs0, g1, g2, g3, -⟩ := (C72_finite_width a.fixed E.sa E.par N.toRec a.betas a.nSteps a.nProjs a.nJobs a.seeds sched sys sys' E.log2W
      (E.width a.maxWidth) a.updateSlices).1 rs hs
    obtain ⟨r0, hr0, hrep⟩ := forall₂_mem_right g3 hr
    rw [hrep.slices]
    have := (C43_slices E.sa E.par N.toRec a.betas a.nSteps a.nProjs a.nJobs a.seeds sched sys sys' E.log2W h.env.log2 (E.width a.maxWidth) a.updateSlices hus
      (h.sa hl) (hl.plain h.rows) rs1 g1 r0 (g2.mem_iff.1 hr0)).2
    rwa [toRec_tsInds] at this
  · obtain ⟨k1, k2⟩ := h5 (by rw [toRec_tsInds]; exact hl.left.connected hc)
    refine ⟨k1, ?_⟩
    rw [toRec_tsInds] at k2
    refine pathFits_congr (fun s hs => ?_) k2
    rw [← hl.sp]
    exact nameWidth_congr _ (fun x hx => hl.dim (hs x hx)) _ _

/-- C74, path and cost (finite width): the same with the slices of the result, which are rows of the text. -/
theorem C74_finite_path [IsOrderedAddMonoid L] (h : TextInput E a text rows) (hus : a.updateSlices ≠ 0)
    (hl : TextLoaded rows a.outTok a.sparseTok E.load.log2 E.load.fuse N path F) {rs : List (FwResultOf ℚ ℕ)}
    (hs : optimizeFwWith (costPrinter a.fixed) E.sa E.par N.toRec E.log2W (E.width a.maxWidth) a.betas a.nSteps a.nProjs a.updateSlices a.nJobs a.seeds sched sys =
      (sys', some (.ok rs))) :
    ∀ r ∈ rs, (∃ u, replay (initTerms (textNames rows a.outTok a.sparseTok).length) (path ++ r.path) = some [u]) ∧ (∀ x ∈ r.slices, x < rows.length) ∧
      (AllConnected (textTensors rows a.outTok a.sparseTok) → ∃ c : ℕ,
        textCost rows a.outTok a.sparseTok a.nProjs r.slices (path ++ r.path) = textCost rows a.outTok a.sparseTok a.nProjs r.slices path + c ∧
        NearestDec (reportDigits a.fixed) (c : ℤ) r.cost) := by
  intro r hr
  obtain ⟨⟨u, hu⟩, hsl, h5⟩ := fw_found h hus hl hs r hr
  refine ⟨⟨u.over F, ?_⟩, fun x hx => (mem_textTensors h.rows).1 (hl.left.sub (hsl x hx)), fun hc => ?_⟩
  · rw [← textTensors_length]
    exact (hl.left.over hu).1
  · obtain ⟨c, hc'⟩ := Int.eq_ofNat_of_zero_le (pathCost_nonneg N.toRec ⟨some N.toRec.sparse, a.nProjs⟩ r.slices r.path)
    have h6 := (h5 hc).1
    rw [hc'] at h6
    exact ⟨c, by rw [hl.cost a.nProjs hsl hu, hc'], h6⟩

variable {R : Type} [CommSemiring R] {enum' : Finset ℕ → List ℕ} {arrays : List (NDArray R)}

/-- C74, value (infinite memory): with arrays of the dimensions of the text, if every row that is no output has two tensors, contracting along the recorded path and the
path of a result gives the value of the network of the text. If the tensors are connected and there are no sparse rows, the reported cost is the number of multiplications after
the recorded path, up to the digits that are not printed. -/
theorem C74_infinite_value (h : TextInput E a text rows) (hl : TextLoaded rows a.outTok a.sparseTok E.load.log2 E.load.fuse N path F) {rs : List (InfResultOf ℚ)}
    (hs : optimizeInfWith (costPrinter a.fixed) E.sa E.par N.toRec a.betas a.nSteps a.nProjs a.nJobs a.seeds sched sys = (sys', some (.ok rs)))
    (he : EnumOk enum') (hA : Consistent (textDim rows) arrays (textTensors rows a.outTok a.sparseTok)) (hc : RowsClosed rows a.outTok a.sparseTok) :
    ∀ r ∈ rs, (∃ zs az, contract enum' (path ++ r.path) (textTensors rows a.outTok a.sparseTok) (some (textInds rows a.outTok)) arrays none =
          .ok ([zs], (textInds rows a.outTok).toFinset, [az]) ∧ zs.Nodup ∧ (∀ x, x ∈ zs ↔ x ∈ textInds rows a.outTok) ∧ az.shape = zs.map (textDim rows) ∧
        ∀ f : ℕ → ℕ, (∀ x ∈ textInds rows a.outTok, f x < textDim rows x) → az.get (zs.map f) =
          einsum (textDim rows) ((List.range rows.length).filter fun k => k ∉ textInds rows a.outTok)
            ((arrays.zip (textTensors rows a.outTok a.sparseTok)).map fun t g => t.1.get (t.2.map g)) f) ∧
      (AllConnected (textTensors rows a.outTok a.sparseTok) → (∀ r ∈ rows, a.sparseTok ∉ r.2) → ∃ c : ℕ,
        contractMuls enum' (path ++ r.path) (textTensors rows a.outTok a.sparseTok) (textInds rows a.outTok) arrays =
          contractMuls enum' path (textTensors rows a.outTok a.sparseTok) (textInds rows a.outTok) arrays + c ∧
        NearestDec (reportDigits a.fixed) (c : ℤ) r.cost) := by
  intro r hr
  obtain ⟨⟨u, hu⟩, h2⟩ := C74_infinite_path h hl hs r hr
  rw [← textTensors_length] at hu
  constructor
  · obtain ⟨zs, az, g1, g2, g3, g4, g5⟩ := C59_value enum' he (path ++ r.path) _ _ arrays textTensors_nodup _ hA (text_out h.rows) (text_two h.rows hc) hu
    refine ⟨zs, az, g1, g2, g3, g4, fun f hf => g5 _ (List.nodup_range.filter _) (fun x => ?_) f hf⟩
    rw [List.mem_filter, List.mem_range, mem_textTensors h.rows, decide_eq_true_eq]
  · intro hconn hsp
    obtain ⟨c, hc1, hc2⟩ := h2 hconn
    have e : ∀ p, ValidPath (textTensors rows a.outTok a.sparseTok).length p → textCost rows a.outTok a.sparseTok a.nProjs ∅ p =
        contractMuls enum' p (textTensors rows a.outTok a.sparseTok) (textInds rows a.outTok) arrays := by
      intro p hp
      rw [C59_muls enum' he p _ _ arrays textTensors_nodup _ hA hp, textCost, text_unsparse hsp]
      congr 1
    rw [e _ ⟨_, hu⟩, e _ ⟨F, by rw [textTensors_length]; exact hl.terms⟩] at hc1
    exact ⟨c, by exact_mod_cast hc1, hc2⟩

/-- C74, value (finite width): contracting every slice along the recorded path and the path of a result, and adding up, gives the value of the network of the text. If the
tensors are connected, then once the recorded path is done, every array held has at most the given width if there are two or more; and if there are no sparse rows, the reported cost is the
number of multiplications of all slices after the recorded path, up to the digits that are not printed. -/
theorem C74_finite_value [IsOrderedAddMonoid L] (h : TextInput E a text rows) (hus : a.updateSlices ≠ 0)
    (hl : TextLoaded rows a.outTok a.sparseTok E.load.log2 E.load.fuse N path F) {rs : List (FwResultOf ℚ ℕ)}
    (hs : optimizeFwWith (costPrinter a.fixed) E.sa E.par N.toRec E.log2W (E.width a.maxWidth) a.betas a.nSteps a.nProjs a.updateSlices a.nJobs a.seeds sched sys =
      (sys', some (.ok rs)))
    (he : EnumOk enum') (hA : Consistent (textDim rows) arrays (textTensors rows a.outTok a.sparseTok)) (hc : RowsClosed rows a.outTok a.sparseTok) :
    ∀ r ∈ rs, (∃ zs : List ℕ, ∃ az : (ℕ → ℕ) → NDArray R, zs.Nodup ∧ (∀ x, x ∈ zs ↔ x ∈ textInds rows a.outTok ∧ x ∉ r.slices) ∧
        (∀ v, contract enum' (path ++ r.path) (sliceNetInds r.slices (textTensors rows a.outTok a.sparseTok)) (some (sliceInds r.slices (textInds rows a.outTok)))
            (sliceArrays r.slices v arrays (textTensors rows a.outTok a.sparseTok)) none = .ok ([zs], (sliceInds r.slices (textInds rows a.outTok)).toFinset, [az v]) ∧
          (az v).shape = zs.map (textDim rows)) ∧
        ∀ f : ℕ → ℕ, (∀ x ∈ textInds rows a.outTok, f x < textDim rows x) →
          sumOver (textDim rows) ((List.range rows.length).filter fun k => k ∈ r.slices ∧ k ∉ textInds rows a.outTok) (fun v => (az v).get (zs.map v)) f =
            einsum (textDim rows) ((List.range rows.length).filter fun k => k ∉ textInds rows a.outTok)
              ((arrays.zip (textTensors rows a.outTok a.sparseTok)).map fun t g => t.1.get (t.2.map g)) f) ∧
      (AllConnected (textTensors rows a.outTok a.sparseTok) →
        (2 ≤ F.length → ∀ v p q, r.path = p ++ q → ∀ inds outR arrs,
          contract enum' (path ++ p) (sliceNetInds r.slices (textTensors rows a.outTok a.sparseTok)) (some (sliceInds r.slices (textInds rows a.outTok)))
            (sliceArrays r.slices v arrays (textTensors rows a.outTok a.sparseTok)) none = .ok (inds, outR, arrs) →
          ∀ xs ∈ inds, nameWidth E.log2W (textDim rows) (textInds rows a.sparseTok).toFinset (a.nProjs.getD 0).toNat xs.toFinset ≤ E.width a.maxWidth) ∧
        ((∀ r ∈ rows, a.sparseTok ∉ r.2) → ∃ c : ℕ, (∀ v,
          (∏ x ∈ r.slices, textDim rows x) * contractMuls enum' (path ++ r.path) (sliceNetInds r.slices (textTensors rows a.outTok a.sparseTok))
              (sliceInds r.slices (textInds rows a.outTok)) (sliceArrays r.slices v arrays (textTensors rows a.outTok a.sparseTok)) =
            (∏ x ∈ r.slices, textDim rows x) * contractMuls enum' path (sliceNetInds r.slices (textTensors rows a.outTok a.sparseTok))
              (sliceInds r.slices (textInds rows a.outTok)) (sliceArrays r.slices v arrays (textTensors rows a.outTok a.sparseTok)) + c) ∧
          NearestDec (reportDigits a.fixed) (c : ℤ) r.cost)) := by
  intro r hr
  obtain ⟨⟨u, hu⟩, -, h2⟩ := C74_finite_path h hus hl hs r hr
  obtain ⟨⟨u', hu'⟩, -, h5⟩ := fw_found h hus hl hs r hr
  rw [← textTensors_length] at hu
  refine ⟨?_, fun hconn => ⟨?_, fun hsp => ?_⟩⟩
  · obtain ⟨zs, az, g1, g2, g3, g4⟩ := C59_sliced enum' he (path ++ r.path) _ _ arrays textTensors_nodup _ hA (text_out h.rows) (text_two h.rows hc) r.slices hu
    refine ⟨zs, az, g1, g2, g3, fun f hf => g4 _ _ (List.nodup_range.filter _) (fun x => ?_) (List.nodup_range.filter _) (fun x => ?_) f hf⟩
    · rw [List.mem_filter, List.mem_range, mem_textTensors h.rows, decide_eq_true_eq]
    · rw [List.mem_filter, List.mem_range, mem_textTensors h.rows, decide_eq_true_eq]
      exact ⟨fun ⟨a, b, c⟩ => ⟨b, a, c⟩, fun ⟨a, b, c⟩ => ⟨b, a, c⟩⟩
  · intro hF v p q hpq inds outR arrs hck
    have hlen : (sliceNetInds r.slices (textTensors rows a.outTok a.sparseTok)).length = (textTensors rows a.outTok a.sparseTok).length := by simp [sliceNetInds]
    have hn' : ∀ xs ∈ sliceNetInds r.slices (textTensors rows a.outTok a.sparseTok), xs.Nodup := by
      intro xs hxs
      obtain ⟨ys, hys, rfl⟩ := List.mem_map.1 hxs
      exact (textTensors_nodup ys hys).filter _
    obtain ⟨F', hF', hall⟩ := C59_held enum' he (path ++ p) _ _ _ _ hn' inds outR arrs hck
    obtain ⟨-, -, -, -, v4, -⟩ := C31_value enum' he (path ++ p) _ _ _ _ hn' inds outR arrs hck
    rw [hpq] at hu'
    obtain ⟨G, hG⟩ := replay_prefix hu'
    rw [hlen, (hl.left.over hG).1] at hF'
    cases hF'
    intro xs hxs
    obtain ⟨t, ht, -, hx⟩ := forall₂_mem_left hall hxs
    obtain ⟨t', ht', rfl⟩ := List.mem_map.1 ht
    have e : xs.toFinset = termInds N.tsInds N.output t' \ r.slices := by
      rw [hl.left.inds_over _ (by rw [← hl.left.length]; exact replay_lt hG t' ht'), ← slice_termInds r.slices _ N.output outR (fun x => by
        rw [v4 x, mem_sliceInds, hl.out, List.mem_toFinset])]
      ext x
      rw [List.mem_toFinset, hx]
    rw [e]
    have h6 := (h5 hconn).2
    rw [hpq] at h6
    exact fits_held h6 hu' hG (by rw [hl.left.length]; exact hF) t' ht'
  · obtain ⟨c, hc1, hc2⟩ := h2 hconn
    refine ⟨c, fun v => ?_, hc2⟩
    have e : ∀ p, ValidPath (textTensors rows a.outTok a.sparseTok).length p → textCost rows a.outTok a.sparseTok a.nProjs r.slices p =
        (((∏ x ∈ r.slices, textDim rows x) * contractMuls enum' p (sliceNetInds r.slices (textTensors rows a.outTok a.sparseTok))
          (sliceInds r.slices (textInds rows a.outTok)) (sliceArrays r.slices v arrays (textTensors rows a.outTok a.sparseTok)) : ℕ) : ℤ) := by
      intro p hp
      rw [C59_sliced_muls enum' he p _ _ arrays textTensors_nodup _ hA r.slices v hp, textCost, text_unsparse hsp]
      congr 1
    rw [e _ ⟨_, hu⟩, e _ ⟨F, by rw [textTensors_length]; exact hl.terms⟩] at hc1
    exact_mod_cast hc1

end

/-! ## When there is an output -/

/-- What is needed for results, besides the text: `before` and `after` say that the options are in order when the optimizer is made and at the end; there are sparse rows
only with `n_projs`, and every connected part with more than one tensor has all of them. -/
structure ProgArgs.Fit (E : ProgEnv σ W τ ρ P V L) (a : ProgArgs) (rows : List (ℕ × List (List ℕ))) : Prop where
  method : a.method = saText
  before : DumpArgsOk E.before { a.dump with extra := false }
  after : DumpArgsOk E.after { a.dump with extra := false }
  writable : ∀ f, a.dump.filename = some f → E.after.writable f = true
  steps : ∃ n bs, checkSteps a.nSteps = .ok n ∧ expandBetas a.betas n = .ok (bs, true)
  projs : (∀ n, a.nProjs = some n → 1 ≤ n) ∧ (a.nProjs = none → ∀ r ∈ rows, a.sparseTok ∉ r.2)
  sparse : SparseOk (textTensors rows a.outTok a.sparseTok) (textInds rows a.sparseTok).toFinset
  jobs : a.nJobs ≠ 0 ∨ E.par.joblib = false
  seeds : a.seeds ≠ []
  codec : ∀ c ∈ ['f', 'b', '?'], ∃ bs, E.par.cd.enc c E.par.zero = .ok bs
  time : ∀ k e, (E.time k).value e ≠ none
  finite : finiteWidthModule a.maxWidth = true → 0 ≤ E.width a.maxWidth ∧ a.updateSlices ≠ 0

/-- Results that can be written are written. -/
theorem dump_returns {after : DumpEnv NetworkJ ResultJ} (h1 : after.tnJson = NetworkJ.toJson) (h2 : after.resJson = ResultJ.toJson) {d : DumpArgs}
    (hd : DumpArgsOk after { d with extra := false }) (hw : ∀ f, d.filename = some f → after.writable f = true) {M : NetworkJ} (hM : M.Ok)
    (hMw : M.toJson ≠ .error .typeError) {rs : List ResultJ} (hr : ∀ r ∈ rs, r.Ok) (hrw : ∀ r ∈ rs, r.toJson ≠ .error .typeError) :
    ∃ o, dumpResults after { d with checkOnly := false, extra := false } M rs = .ok o := by
  obtain ⟨s, hs⟩ : ∃ s, dumpJson after M rs = .ok s := by
    cases h : dumpJson after M rs with
    | ok s => exact ⟨s, rfl⟩
    | error e =>
      obtain ⟨-, h3 | ⟨r, h3, h4⟩⟩ := (C71_output_errors after h1 h2 M rs hM hr e).1 h
      · exact absurd h3 hMw
      · exact absurd h4 (hrw r h3)
  rw [dumpJson_iff] at hs
  have hd' : DumpArgsOk after { d with checkOnly := false, extra := false } := ⟨hd.extra, hd.format, hd.filename, hd.compression⟩
  obtain ⟨fmt, hf, hfm⟩ := hd'.format
  have key := fun o => (C50_dump_partial after { d with checkOnly := false, extra := false } rfl M rs o).2
  rcases Option.eq_none_or_eq_some d.filename with hfn | ⟨f, hfn⟩
  · rcases hfm with rfl | rfl
    · exact ⟨_, key _ ⟨hd', Or.inl ⟨hfn, Or.inl ⟨hf, rfl⟩⟩⟩⟩
    · exact ⟨_, key _ ⟨hd', Or.inl ⟨hfn, Or.inr ⟨hf, s, hs, rfl⟩⟩⟩⟩
  · rcases hfm with rfl | rfl
    · exact ⟨_, key _ ⟨hd', Or.inr ⟨f, _, hfn, hw f hfn, Or.inr ⟨hf, rfl⟩, rfl⟩⟩⟩
    · exact ⟨_, key _ ⟨hd', Or.inr ⟨f, _, hfn, hw f hfn, Or.inl ⟨hf, s, hs, rfl⟩, rfl⟩⟩⟩

/-- A run in which every step returns. -/
theorem runApp_returns {R : Type} {before after : DumpEnv NetworkJ ResultJ} {dump : DumpArgs} {N : ArrNet ℕ ℤ TagsJ}
    {search : NetworkRec ℕ → Sys → Sys × Option (Except (ParErr PyErr) (List R))} {enum : Finset ℕ → List ℕ} {toJ : ℕ → R → ResultJ} {rs : List R}
    (h1 : DumpArgsOk before { dump with extra := false }) (h2 : search N.toRec sys = (sys', some (.ok rs)))
    (h3 : ∃ o, dumpResults after { dump with checkOnly := false, extra := false } (N.toJ enum) (rs.zipIdx.map fun r => toJ r.2 r.1) = .ok o) :
    ∃ o, runApp before after dump (some (.ok N)) search enum toJ sys = (sys', some (.ok o)) := by
  obtain ⟨o, ho⟩ := h3
  have h0 := (C50_dump_check before { dump with extra := false } (⟨[], [], [], []⟩ : NetworkJ) ([] : List ResultJ)).1.2 h1
  refine ⟨o, ?_⟩
  unfold runApp
  simp only [h0, h2, ho]

/-- C74, returns: if the arguments fit the text and no thread is held up, there is an output. -/
theorem C74_returns [IsOrderedAddMonoid L] (h : TextInput E a text rows) (hf : a.Fit E rows) : ∃ K, ∀ rounds : List (List Event),
    (∀ r ∈ rounds, ∀ i < a.seeds.length, .work i ∈ r) → K ≤ rounds.length → ∃ sys' o, program E a text rounds.flatten sys = (sys', some (.ok o)) := by
  obtain ⟨N, path, F, hN, hl⟩ := C74_load h
  obtain ⟨n, bs, hn, hb⟩ := hf.steps
  have hcm : PyCM.make (some N.toRec.sparse) a.nProjs = .ok ⟨some N.toRec.sparse, a.nProjs⟩ := by
    unfold PyCM.make
    have e : N.toRec.sparse = N.sparse := rfl
    cases hp : a.nProjs with
    | none =>
      have : N.sparse = ∅ := by rw [hl.sp]; exact text_unsparse (hf.projs.2 hp)
      simp [e, this]
    | some k =>
      have := hf.projs.1 k hp
      simp only [decide_eq_true_eq]
      rw [if_neg (by omega)]
      simp
  have hsp : SparseOk N.toRec.tsInds N.toRec.sparse := by
    rw [toRec_tsInds]
    exact hl.sparseOk hf.sparse
  have hm := hf.method
  cases hw : finiteWidthModule a.maxWidth with
  | false =>
    obtain ⟨K, hK⟩ := C55_infinite_memory E.sa E.par N.toRec a.betas a.nSteps a.nProjs a.nJobs a.seeds sys (h.sa hl) (hl.plain h.rows) n bs _ hn hb hcm hsp hf.jobs
      hf.seeds hf.codec
    refine ⟨K, fun rounds hr hlen => ?_⟩
    obtain ⟨sys', rs, h1⟩ := hK rounds hr hlen
    obtain ⟨rs', h2⟩ := (C72_infinite_memory a.fixed E.sa E.par N.toRec a.betas a.nSteps a.nProjs a.nJobs a.seeds rounds.flatten sys sys').2.1 rs h1
    refine ⟨sys', ?_⟩
    unfold program
    rw [if_neg (not_not.2 hm), hw]
    simp only [Bool.false_eq_true, if_false, hN]
    refine runApp_returns hf.before h2 (dump_returns h.env.tnJson h.env.resJson hf.after hf.writable (hl.toJ_ok h.names _) (hl.toJ_writes h.names _) ?_ ?_)
    · intro r hr
      obtain ⟨q, -, rfl⟩ := List.mem_map.1 hr
      exact infResultJ_ok h.env.decimal (h.env.time _) _
    · intro r hr
      obtain ⟨q, -, rfl⟩ := List.mem_map.1 hr
      exact infResultJ_writes h.env.decimal (h.env.time _) (hf.time _) _
  | true =>
    obtain ⟨hmw, hus⟩ := hf.finite hw
    have hne : N.toRec.tensors ≠ [] := by
      intro h0
      have := (hl.size h.rows).2
      rw [← toRec_tsInds] at this
      simp [NetworkRec.tsInds, h0] at this
    obtain ⟨K, hK⟩ := C55_finite_width E.sa E.par N.toRec a.betas a.nSteps a.nProjs a.nJobs a.seeds sys E.log2W h.env.log2 (E.width a.maxWidth) hmw a.updateSlices hus
      (h.sa hl) (hl.plain h.rows) hne n bs _ hn hb hcm hsp hf.jobs hf.seeds hf.codec
    refine ⟨K, fun rounds hr hlen => ?_⟩
    obtain ⟨sys', rs, h1⟩ := hK rounds hr hlen
    obtain ⟨rs', h2⟩ := (C72_finite_width a.fixed E.sa E.par N.toRec a.betas a.nSteps a.nProjs a.nJobs a.seeds rounds.flatten sys sys' E.log2W (E.width a.maxWidth)
      a.updateSlices).2.1 rs h1
    refine ⟨sys', ?_⟩
    unfold program
    rw [if_neg (not_not.2 hm), if_pos hw]
    simp only [hN]
    refine runApp_returns hf.before h2 (dump_returns h.env.tnJson h.env.resJson hf.after hf.writable (hl.toJ_ok h.names _) (hl.toJ_writes h.names _) ?_ ?_)
    · intro r hr
      obtain ⟨q, -, rfl⟩ := List.mem_map.1 hr
      exact fwResultJ_ok h.env.decimal _ (h.env.time _) _
    · intro r hr
      obtain ⟨q, -, rfl⟩ := List.mem_map.1 hr
      exact fwResultJ_writes h.env.decimal (h.env.time _) (hf.time _) _

/-- C74, errors: another method, options that are not in order, or a text that cannot be loaded are rejected in this order; no thread is started before. -/
theorem C74_errors : (a.method ≠ saText → program E a text sched sys = (sys, some (.error .noModule))) ∧
    (a.method = saText → ¬ DumpArgsOk E.before { a.dump with extra := false } → ∃ e, program E a text sched sys = (sys, some (.error (.options e)))) ∧
    (a.method = saText → DumpArgsOk E.before { a.dump with extra := false } → ∀ e,
      loadText E.digit E.upper E.other E.load a.outTok a.sparseTok text = some (.error e) → program E a text sched sys = (sys, some (.error (.load e)))) := by
  refine ⟨fun h => if_pos h, fun h h1 => ?_, fun h h1 e he => ?_⟩
  · obtain ⟨e, h0⟩ := (C50_dump_check E.before { a.dump with extra := false } (⟨[], [], [], []⟩ : NetworkJ) ([] : List ResultJ)).2 h1
    refine ⟨e, ?_⟩
    unfold program
    rw [if_neg (not_not.2 h)]
    unfold runApp
    simp only [h0]
    split <;> rfl
  · have h0 := (C50_dump_check E.before { a.dump with extra := false } (⟨[], [], [], []⟩ : NetworkJ) ([] : List ResultJ)).1.2 h1
    unfold program
    rw [if_neg (not_not.2 h)]
    unfold runApp
    simp only [h0, he]
    split <;> rfl

/-- C74, errors: sparse rows without `n_projs`, or an `n_projs` below one, are a `ValueError` before any thread is started. -/
theorem C74_projs (h : TextInput E a text rows) (hm : a.method = saText) (hd : DumpArgsOk E.before { a.dump with extra := false })
    (hs : ∃ n bs, checkSteps a.nSteps = .ok n ∧ expandBetas a.betas n = .ok bs) (hp : (∃ n, a.nProjs = some n ∧ n < 1) ∨ a.nProjs = none ∧ ∃ r ∈ rows, a.sparseTok ∈ r.2) :
    program E a text sched sys = (sys, some (.error (.search (.lib .valueError)))) := by
  obtain ⟨N, path, F, hN, hl⟩ := C74_load h
  obtain ⟨n, ⟨bs, sized⟩, hn, hb⟩ := hs
  have hcm : PyCM.make (some N.toRec.sparse) a.nProjs = .error .valueError := by
    unfold PyCM.make
    have e : N.toRec.sparse = N.sparse := rfl
    rcases hp with ⟨k, hp, hk⟩ | ⟨hp, r, hr, hsp⟩
    · simp [hp, hk]
    · have : N.sparse ≠ ∅ := by
        obtain ⟨i, hi, rfl⟩ := List.mem_iff_getElem.1 hr
        exact Finset.ne_empty_of_mem ((hl.sparse i).2 ⟨hi, by rw [List.getD_eq_getElem _ _ hi]; exact hsp⟩)
      simp [hp, e, this]
  have h0 := (C50_dump_check E.before { a.dump with extra := false } (⟨[], [], [], []⟩ : NetworkJ) ([] : List ResultJ)).1.2 hd
  unfold program
  rw [if_neg (not_not.2 hm)]
  unfold runApp optimizeInfWith optimizeFwWith
  simp only [h0, hN, hn, hb, hcm, ite_self]

end

/-! ## Concrete texts -/

/-- Files are as in C50; `part` and `decimal` are not the ones of Python, but as good here: digits of the integer part. -/
def progDump : DumpEnv NetworkJ ResultJ where
  lower s := s.map fun c => if 65 ≤ c ∧ c ≤ 90 then c + 32 else c
  valid s := decide (0 ∉ s)
  present s := decide (s = chars "a" ∨ s = [])
  writable s := decide (s ≠ [])
  encode s := s
  gz b := 31 :: 139 :: b
  bz b := 66 :: 90 :: 104 :: b
  pickle _ := [128]
  tnJson := NetworkJ.toJson
  resJson := ResultJ.toJson

def progEnv : ProgEnv Unit ℤ Unit ℕ ℚ ℕ ℤ where
  digit := asciiDigit
  upper := asciiUpper
  other _ := none
  load := loadArgs
  sa := saEnv
  par := saPar
  log2W n := (Nat.log2 n : ℤ)
  width w := match w with | .num q => q.floor | _ => 0
  part c := decText c.floor.toNat
  decimal c := decText c.floor.toNat
  time _ := .float (codes "0.5")
  before := progDump
  after := progDump

/-- The arguments of `tnco optimize` with two seeds, JSON output, and the tokens `*` and `/`. -/
def progArgs (w : WidthArg) : ProgArgs where
  method := saText
  maxWidth := w
  nJobs := 1
  fixed := false
  dump := { format := some (codes "JSON") }
  outTok := codes "*"
  sparseTok := codes "/"
  betas := .pair 0 1
  nSteps := some 2
  nProjs := none
  updateSlices := 1
  seeds := [1, 2]

/-- A chain of four matrices. -/
def progText : List ℕ := codes "8 A *\n2 A B\n2 B C\n8 C D\n8 D *"

def progRows : List (ℕ × List (List ℕ)) :=
  [(8, [codes "A", codes "*"]), (2, [codes "A", codes "B"]), (2, [codes "B", codes "C"]), (8, [codes "C", codes "D"]), (8, [codes "D", codes "*"])]

theorem progEnv_ok {n : ℕ} (hn : n < 20) : progEnv.Ok n where
  digits := asciiDigit_ok
  upper := asciiUpper_ok
  load := loadArgs_ok
  loadFuel := lt_trans hn (by decide)
  rng := zeroRng_ok
  enumN := positions_ok
  enum := positions_ok
  fuel := hn
  log2 _ := Int.natCast_nonneg _
  tnJson := rfl
  resJson := rfl
  decimal c := charOk_small fun x hx => by
    have := decText_chars _ x hx
    simp [isDec] at this
    omega
  time _ := Or.inl (by decide)

theorem progInput (w : WidthArg) : TextInput progEnv (progArgs w) progText progRows where
  env := progEnv_ok (show (textNames progRows (codes "*") (codes "/")).length + progRows.length < 20 by decide +kernel)
  parsed := (C50_text asciiDigit_ok asciiUpper_ok _ _).1 (by decide +kernel)
  chars := charOk_small (by decide +kernel)
  rows := show RowsFit progRows (codes "*") (codes "/") from ⟨by decide +kernel, by decide +kernel, by decide +kernel, by decide +kernel⟩

theorem progDump_ok : DumpArgsOk progDump { format := some (codes "JSON") } :=
  ⟨rfl, ⟨jsonText, (wants_iff _ _ _).2 (by decide +kernel), Or.inr rfl⟩, fun f hf => (nomatch hf), by decide +kernel⟩

theorem chain_connected {ts : List (List ℕ)} (h : ∀ i, i + 1 < ts.length → ∃ x, x ∈ ts.getD i [] ∧ x ∈ ts.getD (i + 1) []) : AllConnected ts := by
  have step : ∀ i, i < ts.length → ConnectedPos ts 0 i := by
    intro i
    induction i with
    | zero => intro _; exact .refl
    | succ i ih =>
      intro hi
      obtain ⟨x, h1, h2⟩ := h i hi
      exact (ih (by omega)).tail (adjacent_iff.2 ⟨x, h1, h2⟩)
  have symm : ∀ i, ConnectedPos ts 0 i → ConnectedPos ts i 0 := by
    intro i hi
    induction hi with
    | refl => exact .refl
    | tail _ hab ih =>
      obtain ⟨x, h1, h2⟩ := adjacent_iff.1 hab
      exact .head (adjacent_iff.2 ⟨x, h2, h1⟩) ih
  exact fun i hi j hj => (symm i (step i hi)).trans (step j hj)

theorem progFit (w : WidthArg) (hw : finiteWidthModule w = true → 0 ≤ progEnv.width w) : (progArgs w).Fit progEnv progRows where
  method := rfl
  before := progDump_ok
  after := progDump_ok
  writable f hf := by cases hf
  steps := show ∃ n bs, checkSteps (some 2) = .ok n ∧ expandBetas (.pair 0 1) n = .ok (bs, true) from ⟨some 2, [0, 1 / 2], by decide +kernel, by decide +kernel⟩
  projs := ⟨fun n hn => (nomatch hn), fun _ => show ∀ r ∈ progRows, codes "/" ∉ r.2 by decide +kernel⟩
  sparse x hx := absurd hx (by
    have : (textInds progRows (progArgs w).sparseTok).toFinset = ∅ := text_unsparse (show ∀ r ∈ progRows, codes "/" ∉ r.2 by decide +kernel)
    rw [this]
    exact Finset.notMem_empty x)
  jobs := Or.inl (show (1 : ℤ) ≠ 0 by decide)
  seeds := show [1, 2] ≠ [] by decide
  codec := fun c _ => ⟨_, rfl⟩
  time _ _ := by simp [progEnv, PyJ.value]
  finite h := ⟨hw h, show (1 : ℤ) ≠ 0 by decide⟩

/-- The text that is printed. -/
def printed (r : Sys × Option (Except ProgErr (DumpOut NetworkJ ResultJ))) : List ℕ :=
  match r.2 with
  | some (.ok (.text s)) => s
  | _ => []

example : printed (program progEnv (progArgs .none) progText (saSched 2 40) ⟨[], 0, 0⟩) =
    codes ("{\"tn\" : {\"tensors\": [{\"inds\": [0, 2], \"dims\": [8, 2], \"array\": null, \"tags\": {\"x\": {\"name\": \"A\"}, \"y\": {\"name\": \"B\"}}}, " ++
      "{\"inds\": [2, 4], \"dims\": [2, 8], \"array\": null, \"tags\": {\"x\": {\"name\": \"C\"}, \"y\": {\"name\": \"D\"}}}], " ++
      "\"output_inds\": [0, 4], \"sparse_inds\": []}, \"res\" : [" ++
      "{\"cost\": \"128\", \"runtime_s\": 0.5, \"path\": [[0, 1]], \"disconnected_paths\": [[[0, 1]]]}, " ++
      "{\"cost\": \"128\", \"runtime_s\": 0.5, \"path\": [[0, 1]], \"disconnected_paths\": [[[0, 1]]]}]}") := by decide +kernel

/-- The pairs of a list of tuples. -/
def pairsOf : PyJ → List (ℤ × ℤ)
  | .list l => l.filterMap fun
    | .tuple [.int x, .int y] => some (x, y)
    | _ => none
  | _ => []

/-- The text of a `Decimal`. -/
def decimalOf : PyJ → Option (List ℕ)
  | .decimal s => some s
  | _ => none

/-- The tags of the network that is returned: keys, and pairs. -/
def returnedTags (r : Sys × Option (Except ProgErr (DumpOut NetworkJ ResultJ))) : List (Option (List ℕ) × List (ℤ × ℤ)) :=
  match r.2 with
  | some (.ok (.object (M, _))) => M.tags.map fun t => (match t.1 with | .str s => some s | _ => none, pairsOf t.2)
  | _ => []

/-- The costs of the parts, for each result that is returned. -/
def returnedCosts (r : Sys × Option (Except ProgErr (DumpOut NetworkJ ResultJ))) : List (List (Option (List ℕ))) :=
  match r.2 with
  | some (.ok (.object (_, qs))) => qs.map fun q => q.disconnectedCosts.map decimalOf
  | _ => []

/-- The arguments, with the objects as output. -/
def rawArgs : ProgArgs := { progArgs .none with dump := { format := some (codes "raw") } }

example : rawArgs.dump.wants progDump rawText ∧
    returnedTags (program progEnv rawArgs progText (saSched 2 40) ⟨[], 0, 0⟩) = [(some (codes "fuse_path"), [(0, 1), (0, 1)])] ∧
    returnedCosts (program progEnv rawArgs progText (saSched 2 40) ⟨[], 0, 0⟩) = [[some (codes "128")], [some (codes "128")]] :=
  ⟨(wants_iff _ _ _).2 (by decide +kernel), by decide +kernel, by decide +kernel⟩

/-- With width 4, index 0 is sliced. -/
example : printed (program progEnv (progArgs (.num 4)) progText (saSched 2 60) ⟨[], 0, 0⟩) =
    codes ("{\"tn\" : {\"tensors\": [{\"inds\": [0, 2], \"dims\": [8, 2], \"array\": null, \"tags\": {\"x\": {\"name\": \"A\"}, \"y\": {\"name\": \"B\"}}}, " ++
      "{\"inds\": [2, 4], \"dims\": [2, 8], \"array\": null, \"tags\": {\"x\": {\"name\": \"C\"}, \"y\": {\"name\": \"D\"}}}], " ++
      "\"output_inds\": [0, 4], \"sparse_inds\": []}, \"res\" : [" ++
      "{\"cost\": \"128\", \"runtime_s\": 0.5, \"path\": [[0, 1]], \"disconnected_paths\": [[[0, 1]]], \"disconnected_slices\": [[0]], \"slices\": [0]}, " ++
      "{\"cost\": \"128\", \"runtime_s\": 0.5, \"path\": [[0, 1]], \"disconnected_paths\": [[[0, 1]]], \"disconnected_slices\": [[0]], \"slices\": [0]}]}") := by
  decide +kernel

/-- The other hypotheses of C74 for this text: rows without output have two tensors, the tensors are connected, and there are arrays for them. -/
example : RowsClosed progRows (codes "*") (codes "/") ∧ AllConnected (textTensors progRows (codes "*") (codes "/")) ∧ (∀ r ∈ progRows, codes "/" ∉ r.2) ∧
    Consistent (textDim progRows) [(⟨[8, 2], fun k => (k : ℤ)⟩ : NDArray ℤ), ⟨[2, 2], fun k => 3 - (k : ℤ)⟩, ⟨[2, 8], fun k => (k : ℤ) * k⟩, ⟨[8, 8], fun _ => 1⟩]
      (textTensors progRows (codes "*") (codes "/")) ∧ finiteWidthModule .none = false ∧ finiteWidthModule (.num 4) = true ∧ 0 ≤ progEnv.width (.num 4) :=
  ⟨by unfold RowsClosed; decide +kernel, chain_connected (by
    intro i hi
    have hi' : i + 1 < 4 := hi
    have hi'' : i < 3 := by omega
    interval_cases i
    · exact ⟨1, by decide +kernel, by decide +kernel⟩
    · exact ⟨2, by decide +kernel, by decide +kernel⟩
    · exact ⟨3, by decide +kernel, by decide +kernel⟩), by decide +kernel, ⟨by decide +kernel, by decide +kernel⟩, by decide +kernel, by decide +kernel, by decide +kernel⟩

/-- Which exception there is. -/
def failed (r : Sys × Option (Except ProgErr (DumpOut NetworkJ ResultJ))) : Option ProgErr :=
  match r.2 with
  | some (.error e) => some e
  | _ => none

/-- Another method; a file that is there; a row with a name twice; a row whose only name is the one of outputs; sparse rows without `n_projs`. -/
example : failed (program progEnv { progArgs .none with method := codes "greedy" } progText [] ⟨[], 0, 0⟩) = some .noModule ∧
    failed (program progEnv { progArgs .none with dump := { filename := some (codes "a") } } progText [] ⟨[], 0, 0⟩) = some (.options .fileExists) ∧
    failed (program progEnv (progArgs .none) (codes "2 A B\n2 C C") [] ⟨[], 0, 0⟩) = some (.load .valueError) ∧
    failed (program progEnv (progArgs .none) (codes "2 A B\n2 *") [] ⟨[], 0, 0⟩) = some (.load .valueError) ∧
    failed (program progEnv (progArgs .none) (codes "2 A B / *\n2 A B") [] ⟨[], 0, 0⟩) = some (.search (.lib .valueError)) := by decide +kernel

example : mainParams 7 [some 1, none, some 3, none, none, none, some 6] =
    .ok [("method", some 1), ("max_width", none), ("n_jobs", some 3), ("width_type", none), ("cost_type", none), ("output_format", some 7), ("output_filename", some 6)] ∧
    mainParams 7 [some 1, some 2] = .error .keyError := by decide +kernel

/-! ## What is missing in the output -/

/-- Every path that contracts all of several tensors costs something. -/
theorem textCost_pos {rows : List (ℕ × List (List ℕ))} {outTok sparseTok : List ℕ} (h : RowsFit rows outTok sparseTok) (hs : ∀ r ∈ rows, sparseTok ∉ r.2)
    (h2 : 2 ≤ (textNames rows outTok sparseTok).length) (nProjs : Option ℤ) {p : List (ℕ × ℕ)} {u : Term}
    (hp : replay (initTerms (textNames rows outTok sparseTok).length) p = some [u]) : 0 < textCost rows outTok sparseTok nProjs ∅ p := by
  have hlen := (Linear.replay_length hp).1
  have htr := trace_length hp
  rw [initTerms, List.length_map, List.length_range, List.length_singleton] at hlen
  have hpos : ∀ t ∈ trace (initTerms (textNames rows outTok sparseTok).length) p, 0 < pairCost (nameCost (textDim rows) ∅ (nProjs.getD 0).toNat)
      (textTensors rows outTok sparseTok) (textInds rows outTok).toFinset ∅ t := by
    intro t ht
    cases t with
    | tensor i => exact absurd (trace_isPair ht) (by simp [Term.isPair])
    | pair a b =>
      simp only [pairCost, nameCost, if_true, Nat.cast_pos]
      refine Finset.prod_pos fun x hx => ?_
      have hlt : x < rows.length := by
        simp only [Finset.union_empty, Finset.mem_union] at hx
        rcases hx with hx | hx <;> exact (mem_textTensors h).1 (termInds_sub hx)
      rw [textDim, List.getD_eq_getElem _ _ hlt]
      exact (h.each _ (List.getElem_mem hlt)).1
  rw [textCost, text_unsparse hs, pathCost, textTensors_length]
  cases ht : trace (initTerms (textNames rows outTok sparseTok).length) p with
  | nil => rw [ht] at htr; simp at htr; omega
  | cons t l =>
    rw [ht] at hpos
    rw [List.map_cons, List.sum_cons]
    have h1 := hpos t List.mem_cons_self
    have h3 : 0 ≤ (l.map (pairCost (nameCost (textDim rows) ∅ (nProjs.getD 0).toNat) (textTensors rows outTok sparseTok) (textInds rows outTok).toFinset ∅)).sum :=
      List.sum_nonneg fun x hx => by
        obtain ⟨t', ht', rfl⟩ := List.mem_map.1 hx
        exact (hpos t' (List.mem_cons_of_mem _ ht')).le
    omega

/-- C74, violated: the reported cost is not the cost of contracting the network of the text, and the path not a path for it: with the default of `fuse`, this chain of three
tensors is contracted while it is loaded. The output has cost 0 and no contraction; how the tensors were contracted can only be read from the tags. -/
theorem C74_violated_cost : ∃ rows, TextInput progEnv (progArgs .none) (codes "2 A B\n2 B C") rows ∧
    printed (program progEnv (progArgs .none) (codes "2 A B\n2 B C") (saSched 2 40) ⟨[], 0, 0⟩) =
      codes ("{\"tn\" : {\"tensors\": [{\"inds\": [], \"dims\": [], \"array\": null, " ++
        "\"tags\": {\"x\": {\"name\": \"C\"}, \"y\": {\"x\": {\"name\": \"A\"}, \"y\": {\"name\": \"B\"}}}}], \"output_inds\": [], \"sparse_inds\": []}, \"res\" : [" ++
        "{\"cost\": 0, \"runtime_s\": 0.5, \"path\": [], \"disconnected_paths\": [[]]}, {\"cost\": 0, \"runtime_s\": 0.5, \"path\": [], \"disconnected_paths\": [[]]}]}") ∧
    ∀ p u, replay (initTerms (textNames rows (codes "*") (codes "/")).length) p = some [u] → 0 < textCost rows (codes "*") (codes "/") none ∅ p := by
  have hr : RowsFit [(2, [codes "A", codes "B"]), (2, [codes "B", codes "C"])] (codes "*") (codes "/") :=
    ⟨by decide +kernel, by decide +kernel, by decide +kernel, by decide +kernel⟩
  exact ⟨[(2, [codes "A", codes "B"]), (2, [codes "B", codes "C"])], ⟨progEnv_ok (by decide +kernel), (C50_text asciiDigit_ok asciiUpper_ok _ _).1 (by decide +kernel),
    charOk_small (by decide +kernel), hr⟩, by decide +kernel, fun p u hp => textCost_pos hr (by decide +kernel) (by decide +kernel) none hp⟩

end TNCO
