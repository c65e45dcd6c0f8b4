import Verif.Model.Program
import Verif.Spec.LoadText
import Verif.Spec.PathCost
import Verif.Spec.Json

/-!
# Specification: the network of a text, and what the program makes of it
-/

namespace TNCO

section
variable (rows : List (ℕ × List (List ℕ)))

/-- The dimension of row `k`. -/
def textDim (k : ℕ) : ℕ := (rows.getD k (0, [])).1

/-- The rows with a name, in order. -/
def textInds (t : List ℕ) : List ℕ := (List.range rows.length).filter fun k => t ∈ (rows.getD k (0, [])).2

/-- The names of the tensors, in the order in which they first appear. -/
def textNames (outTok sparseTok : List ℕ) : List (List ℕ) := (uniqueEverseen (rows.flatMap Prod.snd)).filter fun t => t ≠ outTok ∧ t ≠ sparseTok

/-- The indices of the tensors. -/
def textTensors (outTok sparseTok : List ℕ) : List (List ℕ) := (textNames rows outTok sparseTok).map (textInds rows)

/-- Every row has a positive dimension and the name of a tensor, and no name twice; there is a row. -/
structure RowsFit (outTok sparseTok : List ℕ) : Prop where
  tokens : outTok ≠ sparseTok
  each : ∀ r ∈ rows, 0 < r.1 ∧ ∃ t ∈ r.2, t ≠ outTok ∧ t ≠ sparseTok
  nodup : ∀ r ∈ rows, r.2.Nodup
  nonempty : rows ≠ []

/-- Every row that is no output has at least two tensors. -/
def RowsClosed (outTok sparseTok : List ℕ) : Prop := ∀ r ∈ rows, outTok ∈ r.2 ∨ 2 ≤ (r.2.filter fun t => t ≠ outTok ∧ t ≠ sparseTok).length

end

/-- The tags of a bracketing of tensors: the name of a tensor under `name`; the tags of the two operands of a contraction under `x` and `y`. -/
def termTags (names : List (List ℕ)) : Term → TagsJ
  | .tensor i => [(.str keyName, .str (names.getD i []))]
  | .pair a b => [(.str [120], .dict (termTags names a)), (.str [121], .dict (termTags names b))]

/-- `N` is the network of the rows, after the contractions of a path; `F` are the tensors that are left, as bracketings of the ones of the text. -/
structure TextLoaded {W : Type} [Zero W] [Add W] [LT W] (rows : List (ℕ × List (List ℕ))) (outTok sparseTok : List ℕ) (log2 : ℕ → W) (fuse : Option W)
    (N : ArrNet ℕ ℤ TagsJ) (path : List (ℕ × ℕ)) (F : List Term) : Prop where
  /-- The path is recorded; without one, nothing is contracted. -/
  recorded : N.fusePath = some path ∨ N.fusePath = none ∧ path = []
  /-- If there are sparse indices, or `fuse` is not positive, nothing is contracted. -/
  unfused : ((∃ r ∈ rows, sparseTok ∈ r.2) ∨ ∀ w, fuse = some w → ¬ 0 < w) → path = []
  terms : replay (initTerms (textNames rows outTok sparseTok).length) path = some F
  inds : List.Forall₂ (fun xs t => xs.Nodup ∧ ∀ x, x ∈ xs ↔ x ∈ termInds (textTensors rows outTok sparseTok) N.output t) N.tsInds F
  tags : N.tsTags.map (fun t => t.map tagsJ) = F.map fun t => some (termTags (textNames rows outTok sparseTok) t)
  arrays : N.arrays = List.replicate F.length none
  dims : ∀ x ∈ N.tsInds.flatten, N.dims x = some (textDim rows x)
  output : ∀ k, k ∈ N.output ↔ k < rows.length ∧ outTok ∈ (rows.getD k (0, [])).2
  sparse : ∀ k, k ∈ N.sparse ↔ k < rows.length ∧ sparseTok ∈ (rows.getD k (0, [])).2
  /-- No contraction is wider than `fuse`. -/
  narrow : ∀ w, fuse = some w → ∀ t ∈ trace (initTerms (textNames rows outTok sparseTok).length) path,
    ∃ xs : List ℕ, xs.Nodup ∧ (∀ x, x ∈ xs ↔ x ∈ termInds (textTensors rows outTok sparseTok) N.output t) ∧
      ¬ w < (xs.map fun x => log2 (textDim rows x)).foldl (· + ·) 0

/-- The object of a network of a text, without `tags` of the network: for each tensor the rows, their dimensions, no array, and the tags that tell how it comes from
the tensors of the text. -/
structure TextWritten (rows : List (ℕ × List (List ℕ))) (names : List (List ℕ)) (N : ArrNet ℕ ℤ TagsJ) (F : List Term) (j : Json) : Prop where
  network : ∃ (ts : List Json) (out sp : List ℕ), j = .obj [(keyTensors, .arr ts), (keyOutput, .arr (out.map natJson)), (keySparse, .arr (sp.map natJson))] ∧
    List.Forall₂ (fun (e : List ℕ × Term) t => ∃ tags, t = .obj [(keyInds, .arr (e.1.map natJson)), (keyDims, .arr (e.1.map fun x => natJson (textDim rows x))),
      (keyArray, .null), (keyTags, .obj tags)] ∧ List.Forall₂ (WrittenItem .network) (termTags names e.2) tags) (N.tsInds.zip F) ts ∧
    out.Nodup ∧ (∀ x, x ∈ out ↔ x ∈ N.output) ∧ sp.Nodup ∧ ∀ x, x ∈ sp ↔ x ∈ N.sparse

/-- The text of a cost: that of the `Decimal`, or the number `0` if nothing is contracted. -/
def costText (decimal : ℚ → List ℕ) (paths : List (List (ℕ × ℕ))) (c : ℚ) (j : Json) : Prop :=
  ((∀ p ∈ paths, p = []) ∧ j = natJson 0) ∨ (∃ p ∈ paths, p ≠ []) ∧ j = .str (decimal c)

/-- The object of a result of the infinite-memory app. -/
def InfWritten (decimal : ℚ → List ℕ) (r : InfResultOf ℚ) (j : Json) : Prop :=
  ∃ c t, j = .obj [(keyCost, c), (keyRuntime, t), (keyPath, pathJson r.path), (keyPaths, .arr (r.paths.map pathJson))] ∧ costText decimal r.paths r.cost c

/-- The object of a result of the finite-width app. -/
def FwWritten (decimal : ℚ → List ℕ) (r : FwResultOf ℚ ℕ) (j : Json) : Prop :=
  ∃ (c t : Json) (ds : List Json) (s : List ℕ), j = .obj [(keyCost, c), (keyRuntime, t), (keyPath, pathJson r.path), (keyPaths, .arr (r.paths.map pathJson)), (keyDSlices, .arr ds),
      (keySlices, .arr (s.map natJson))] ∧ costText decimal r.paths r.cost c ∧ s.Nodup ∧ (∀ x, x ∈ s ↔ x ∈ r.slices) ∧
    List.Forall₂ (fun S j => ∃ l : List ℕ, j = Json.arr (l.map natJson) ∧ l.Nodup ∧ ∀ x, x ∈ l ↔ x ∈ S) r.slicesList ds

/-- The text is the whole output, or the whole file, compressed as its name or the option says. -/
def TextOut {T R : Type} (env : DumpEnv T R) (a : DumpArgs) (s : List ℕ) (o : DumpOut T R) : Prop :=
  (a.filename = none ∧ o = .text s) ∨ ∃ f, a.filename = some f ∧ env.writable f = true ∧
    o = .file f (compressBytes env (chooseCompress f (env.lower a.compression)) (env.encode s))

/-- The network and the results as objects are the output, or are pickled into the file, compressed as its name or the option says. -/
def ObjectOut {T R : Type} (env : DumpEnv T R) (a : DumpArgs) (t : T × List R) (o : DumpOut T R) : Prop :=
  (a.filename = none ∧ o = .object t) ∨ ∃ f, a.filename = some f ∧ env.writable f = true ∧
    o = .file f (compressBytes env (chooseCompress f (env.lower a.compression)) (env.pickle t))

/-- The object of a network of a text: as in `TextWritten`, and with the path of the contractions under `fuse_path`. -/
structure TextObject (rows : List (ℕ × List (List ℕ))) (names : List (List ℕ)) (N : ArrNet ℕ ℤ TagsJ) (path : List (ℕ × ℕ)) (F : List Term) (M : NetworkJ) : Prop where
  tensors : List.Forall₂ (fun (e : List ℕ × Term) t => t.inds = e.1.map (fun x : ℕ => PyJ.int x) ∧ t.dims = e.1.map (textDim rows) ∧ t.array = none ∧
    t.tags = termTags names e.2) (N.tsInds.zip F) M.tensors
  output : ∃ l : List ℕ, M.output = l.map (fun x : ℕ => PyJ.int x) ∧ l.Nodup ∧ ∀ x, x ∈ l ↔ x ∈ N.output
  sparse : ∃ l : List ℕ, M.sparse = l.map (fun x : ℕ => PyJ.int x) ∧ l.Nodup ∧ ∀ x, x ∈ l ↔ x ∈ N.sparse
  tags : (M.tags = [] ∧ path = []) ∨
    M.tags = [(.str keyFusePath, .list (path.map fun q => .tuple [.int q.1, .int q.2]))]

/-- The object of a cost: the number `0` if nothing is contracted, else the `Decimal`. -/
def costObject (decimal : ℚ → List ℕ) (paths : List (List (ℕ × ℕ))) (c : ℚ) (o : PyJ) : Prop :=
  ((∀ p ∈ paths, p = []) ∧ o = .int 0) ∨ (∃ p ∈ paths, p ≠ []) ∧ o = .decimal (decimal c)

/-- The object of a result of the infinite-memory app: also the cost of each part. -/
structure InfObject (part decimal : ℚ → List ℕ) (r : InfResultOf ℚ) (q : ResultJ) : Prop where
  cost : costObject decimal r.paths r.cost q.cost
  path : q.path = r.path
  paths : q.disconnectedPaths = r.paths
  costs : List.Forall₂ (fun e o => costObject part [e.1] e.2 o) (r.paths.zip r.costs) q.disconnectedCosts
  finite : q.finite = none

/-- The object of a result of the finite-width app. -/
structure FwObject (part decimal : ℚ → List ℕ) (r : FwResultOf ℚ ℕ) (q : ResultJ) : Prop where
  cost : costObject decimal r.paths r.cost q.cost
  path : q.path = r.path
  paths : q.disconnectedPaths = r.paths
  costs : List.Forall₂ (fun e o => costObject part [e.1] e.2 o) (r.paths.zip r.costs) q.disconnectedCosts
  finite : ∃ (ds : List (List ℕ)) (s : List ℕ), q.finite = some (ds.map fun l => l.map fun x : ℕ => PyJ.int x, s.map fun x : ℕ => PyJ.int x) ∧
    s.Nodup ∧ (∀ x, x ∈ s ↔ x ∈ r.slices) ∧ List.Forall₂ (fun S l => l.Nodup ∧ ∀ x, x ∈ l ↔ x ∈ S) r.slicesList ds

/-- The text is an object with the network under `tn` and the results under `res`. -/
def ResultsText {ρ : Type} (network : Json → Prop) (written : ρ → Json → Prop) (rs : List ρ) (s : List ℕ) : Prop :=
  ∃ j js, readJson s = some (.obj [(keyTn, j), (keyRes, .arr js)]) ∧ network j ∧ List.Forall₂ written rs js

/-- The cost of a path for the network of the rows, with indices that are sliced. -/
def textCost (rows : List (ℕ × List (List ℕ))) (outTok sparseTok : List ℕ) (nProjs : Option ℤ) (slices : Finset ℕ) (path : List (ℕ × ℕ)) : ℤ :=
  pathCost (nameCost (textDim rows) (textInds rows sparseTok).toFinset (nProjs.getD 0).toNat) (textTensors rows outTok sparseTok) (textInds rows outTok).toFinset
    slices path

end TNCO
