import Verif.Lemmas.Rename
import Verif.Spec.Rename

/-! Renaming the indices of a network: optimizers and apps. -/

namespace TNCO
variable {ι κ τ σ P V W C : Type} [DecidableEq ι] [DecidableEq κ] {f : ι → κ}

theorem dget_rename {ν : Type} (hf : Function.Injective f) (D : List (ι × ν)) (x : ι) : dget (D.map fun e => (f e.1, e.2)) (f x) = dget D x := by
  unfold dget
  induction D with
  | nil => rfl
  | cons e D ih =>
    rw [List.map_cons, List.find?_cons, List.find?_cons]
    by_cases h : e.1 = x
    · simp [h]
    · have h' : f e.1 ≠ f x := fun e' => h (hf e')
      simp only [h, h', decide_false]
      exact ih

theorem NetworkRec.rename_tsInds (N : NetworkRec ι) : (N.rename f).tsInds = N.tsInds.map (List.map f) := by
  unfold NetworkRec.tsInds NetworkRec.rename
  rw [List.map_map, List.map_map]
  rfl

theorem NetworkRec.tree_rename (hf : Function.Injective f) {enum : Finset ι → List ι} {enum' : Finset κ → List κ} (he : EnumOk enum) (he' : EnumOk enum')
    (N : NetworkRec ι) (path : List (ℕ × ℕ)) : ExRel (TreeRel f) (N.tree enum path) ((N.rename f).tree enum' path) := by
  unfold NetworkRec.tree
  rw [N.rename_tsInds]
  exact ofPath_map hf he he' path N.tsInds _ _ (fun x => dget_rename hf N.dims x) N.output true

/-! Cost models -/

/-- A cost model with its sparse indices renamed. -/
def PyCM.rename (f : ι → κ) (cm : PyCM ι) : PyCM κ := ⟨cm.sparse.map (Finset.image f), cm.nProjs⟩

theorem PyCM.make_rename (s : Finset ι) (n : Option ℤ) :
    PyCM.make (some (s.image f)) n = (PyCM.make (some s) n).map (PyCM.rename f) := by
  unfold PyCM.make
  have h : (some (s.image f)).getD ∅ ≠ ∅ ↔ (some s).getD ∅ ≠ ∅ := by
    simp only [Option.getD_some, ne_eq, Finset.image_eq_empty]
  have h' : some (s.image f) = none ↔ some s = none := by simp
  simp only [h, h']
  rcases n with _ | n
  · split_ifs <;> rfl
  · split_ifs <;> rfl

theorem getD_image (f : ι → κ) (s : Option (Finset ι)) : (s.map (Finset.image f)).getD ∅ = (s.getD ∅).image f := by
  rcases s with _ | s <;> rfl

theorem image_subset_map (hf : Function.Injective f) (s : Finset ι) (order : List ι) : s.image f ⊆ (order.map f).toFinset ↔ s ⊆ order.toFinset := by
  have : (order.map f).toFinset = order.toFinset.image f := by ext y; simp
  rw [this, Finset.image_subset_image_iff hf]

theorem image_idxOf (hf : Function.Injective f) (s : Finset ι) (order : List ι) : (s.image f).image (order.map f).idxOf = s.image order.idxOf := by
  rw [Finset.image_image]
  congr 1
  funext x
  exact idxOf_map_inj hf _ _

theorem PyCM.core_rename (hf : Function.Injective f) (cm : PyCM ι) (order : List ι) (dims : Dims) :
    (cm.rename f).core (order.map f) dims = cm.core order dims := by
  unfold PyCM.core PyCM.rename
  dsimp only
  rw [getD_image]
  by_cases h0 : cm.sparse.getD ∅ = ∅
  · rw [if_pos h0, if_pos (Finset.image_eq_empty.2 h0)]
  · rw [if_neg h0, if_neg fun h => h0 (Finset.image_eq_empty.1 h), image_idxOf hf]
    by_cases h1 : cm.sparse.getD ∅ ⊆ order.toFinset
    · rw [if_neg (not_not.2 h1), if_neg (not_not.2 ((image_subset_map hf _ _).2 h1))]
    · rw [if_pos h1, if_pos fun h => h1 ((image_subset_map hf _ _).1 h)]

/-! The cache of an optimizer -/

/-- The same caches up to the names of the indices. -/
structure CacheRel (f : ι → κ) (k : PyCache ι) (k' : PyCache κ) : Prop where
  n : k'.nTensors = k.nTensors
  pos : k'.tensorsPos = k.tensorsPos
  order : k'.indsOrder = k.indsOrder.map f
  dims : k'.dims.toList k'.indsOrder = k.dims.toList k.indsOrder

theorem TreeRel.cache (hf : Function.Injective f) {t : PyTree ι} {t' : PyTree κ} (h : TreeRel f t t') : CacheRel f t.cache t'.cache where
  n := h.n
  pos := h.pos
  order := h.order
  dims := by
    change (PyDims.dict (dimOf t'.indsOrder t'.core.dims)).toList t'.indsOrder = (PyDims.dict (dimOf t.indsOrder t.core.dims)).toList t.indsOrder
    rw [h.order, h.core]
    refine toList_map _ _ (fun x => ?_) _
    unfold dimOf
    rw [idxOf_map_inj hf]
    have : f x ∈ t.indsOrder.map f ↔ x ∈ t.indsOrder := by
      rw [List.mem_map]; exact ⟨fun ⟨y, hy, e⟩ => hf e ▸ hy, fun hx => ⟨x, hx, rfl⟩⟩
    simp only [this]

theorem namesOf_map (order : List ι) (n : ℕ) (xs : ISet) : namesOf (order.map f) n xs = (namesOf order n xs).map (List.map f) := by
  unfold namesOf
  generalize (List.range n).filter (· ∈ xs) = l
  induction l with
  | nil => rfl
  | cons i l ih =>
    rw [List.mapM_cons, List.mapM_cons, ih, List.getElem?_map]
    rcases order[i]? with _ | a
    · rfl
    rcases l.mapM (fun i => order[i]?) with _ | b <;> rfl

theorem mapM_namesOf_map (order : List ι) (n : ℕ) (l : List ISet) :
    l.mapM (namesOf (order.map f) n) = (l.mapM (namesOf order n)).map (List.map (List.map f)) := by
  induction l with
  | nil => rfl
  | cons i l ih =>
    rw [List.mapM_cons, List.mapM_cons, ih, namesOf_map]
    rcases namesOf order n i with _ | a
    · rfl
    rcases l.mapM (namesOf order n) with _ | b <;> rfl

theorem ofBits_map (order : List ι) (n : ℕ) (xs : ISet) : ofBits (order.map f) n xs = (ofBits order n xs).map (Finset.image f) := by
  unfold ofBits
  rw [namesOf_map]
  rcases namesOf order n xs with _ | l
  · rfl
  · simp only [Option.map_some]
    congr 1
    ext y; simp

theorem getCtree_rename (hf : Function.Injective f) {k : PyCache ι} {k' : PyCache κ} (h : CacheRel f k k') (c : CTree) :
    ExRel (TreeRel f) (getCtree k c) (getCtree k' c) := by
  unfold getCtree
  rw [h.order, mapM_namesOf_map]
  rcases ((List.range c.tree.size).map c.inds).mapM (namesOf k.indsOrder c.nInds) with _ | names
  · rfl
  dsimp only [Option.map_some]
  unfold PyTree.ofNodes
  have h1 : k'.indsOrder.toFinset ≠ (names.map (List.map f)).flatten.toFinset ↔ k.indsOrder.toFinset ≠ names.flatten.toFinset := by
    rw [h.order, flatten_map_map]
    have e : ∀ l : List ι, (l.map f).toFinset = l.toFinset.image f := fun l => by ext y; simp
    rw [e, e, ne_eq, ne_eq, (Finset.image_injective hf).eq_iff]
  by_cases h2 : k.indsOrder.toFinset ≠ names.flatten.toFinset
  · rw [if_pos h2, if_pos (h1.2 h2)]; rfl
  · rw [if_neg h2, if_neg fun h3 => h2 (h1.1 h3), h.dims, List.map_map]
    have e : (names.map ((fun xs : List κ => xs.map fun x => k'.indsOrder.idxOf x) ∘ List.map f)) = names.map fun xs => xs.map fun x => k.indsOrder.idxOf x := by
      refine List.map_congr_left fun xs _ => ?_
      simp only [Function.comp, List.map_map, h.order]
      refine List.map_congr_left fun x _ => ?_
      exact idxOf_map_inj hf _ _
    rw [e, h.n, h.pos, h.order]
    rcases k.dims.toList k.indsOrder with _ | ds
    · rfl
    dsimp only
    have hfin : ∀ x : Except PyErr CTree, ExRel (TreeRel f)
        (match x with | .error e => .error e | .ok core => .ok ⟨core, k.nTensors, k.tensorsPos, k.indsOrder⟩)
        (match x with | .error e => .error e | .ok core => .ok ⟨core, k.nTensors, k.tensorsPos, k.indsOrder.map f⟩) := by
      rintro (e | core)
      · rfl
      · exact ⟨rfl, rfl, rfl, rfl⟩
    exact hfin _

theorem TreeRel.path {t : PyTree ι} {t' : PyTree κ} (h : TreeRel f t t') : t'.path = t.path := by
  unfold PyTree.path
  rw [h.core, h.n, h.pos]

/-! Infinite memory -/

section
variable [LinearOrder P]

/-- The same optimizer up to the names. -/
structure PyInfRel (f : ι → κ) (o : PyInf ι σ ℤ × CostModel ℤ) (o' : PyInf κ σ ℤ × CostModel ℤ) : Prop where
  core : o'.1.core = o.1.core
  model : o'.2 = o.2
  cache : CacheRel f o.1.cache o'.1.cache

theorem toPy_rel {α β : Type} (R : α → β → Prop) (e : ShipErr) : OutRel R (e.toPy : Option (Except PyErr α)) (e.toPy : Option (Except PyErr β)) := by
  rcases e with e | _ | _ | _
  · rfl
  · rfl
  · trivial
  · rfl

theorem infAnneal_rename (hf : Function.Injective f) (pr : Printer C) (E : SaEnv ι τ σ P V) {enumN : Finset ℕ → List ℕ} {enum : Finset κ → List κ}
    (hE : EnumOk E.enum) (hEN : EnumOk E.enumN) (he : EnumOk enum) (hen : EnumOk enumN) (N : NetworkRec ι) (cm : PyCM ι) :
    Anneal.Rel (fun _ => True) (PyInfRel f) Eq Eq (infAnnealWith pr E N cm)
      (infAnnealWith pr (E.withSets enumN enum) (N.rename f) (cm.rename f)) where
  paths seed := by
    change randomPaths E.rng enumN E.fuel (E.rngSeed seed) (N.rename f).tsInds = randomPaths E.rng E.enumN E.fuel (E.rngSeed seed) N.tsInds
    rw [N.rename_tsInds, randomPaths_map hf E.rng hEN hen]
  goods _ _ _ _ _ := trivial
  make seed p _ _ := by
    have ht := N.tree_rename hf hE he p
    simp only [infAnnealWith, SaEnv.withSets]
    revert ht
    rcases N.tree E.enum p with e | t <;> rcases (N.rename f).tree enum p with e' | t'
    all_goals intro ht
    all_goals first | exact ht.elim | exact ht | skip
    simp only
    rw [ht.order, ht.core, cm.core_rename hf]
    rcases cm.core t.indsOrder t.core.dims with e | m
    · rfl
    simp only [PyInf.make, ht.core, Option.map_none]
    rcases InfOpt.make m t.core (E.prngSeed seed) false none with _ | e | o
    · exact toPy_rel _ _
    · exact toPy_rel _ _
    · exact ⟨rfl, rfl, ht.cache hf⟩
  update n b o o' h := by
    simp only [infAnnealWith, SaEnv.withSets, h.core, h.model]
    rcases o.1.core.update E.prng.toPrng o.2 (E.prob b) with _ | c
    · trivial
    · exact ⟨rfl, rfl, h.cache⟩
  log2 o o' h := by simp only [infAnnealWith, SaEnv.withSets, h.core]
  finish o o' h := by
    have ht := getCtree_rename hf h.cache o.1.core.minCtree
    simp only [infAnnealWith, h.core]
    revert ht
    rcases getCtree o.1.cache o.1.core.minCtree with e | t <;> rcases getCtree o'.1.cache o.1.core.minCtree with e' | t'
    all_goals intro ht
    all_goals first | exact ht.elim | exact ht | skip
    simp only
    rw [ht.path]
    rcases t.path with _ | p
    · trivial
    · rfl
  trivial := rfl
  total l l' h := by
    have : l = l' := by
      induction h with
      | nil => rfl
      | cons h _ ih => rw [h, ih]
    subst this
    simp only [infAnnealWith, NetworkRec.rename, List.length_map]
    rcases infTotalWith pr N.tensors.length l with e | r <;> rfl

/-! Finite width -/

variable [AddCommGroup W] [LinearOrder W]

theorem PyCM.widthCore_rename (hf : Function.Injective f) (cm : PyCM ι) (log2W : ℕ → W) (w : W) (order : List ι) (dims : Dims) :
    (cm.rename f).widthCore log2W w (order.map f) dims = cm.widthCore log2W w order dims := by
  unfold PyCM.widthCore PyCM.rename
  dsimp only
  rw [getD_image]
  by_cases h0 : cm.sparse.getD ∅ = ∅
  · rw [if_pos h0, if_pos (Finset.image_eq_empty.2 h0)]
  · rw [if_neg h0, if_neg fun h => h0 (Finset.image_eq_empty.1 h), image_idxOf hf]
    by_cases h1 : cm.sparse.getD ∅ ⊆ order.toFinset
    · rw [if_neg (not_not.2 h1), if_neg (not_not.2 ((image_subset_map hf _ _).2 h1))]
    · rw [if_pos h1, if_pos fun h => h1 ((image_subset_map hf _ _).1 h)]

/-- The same optimizer up to the names. -/
structure PyFwRel (f : ι → κ) (o : FwRun ι σ W) (o' : FwRun κ σ W) : Prop where
  core : o'.opt.core = o.opt.core
  model : o'.cm = o.cm
  width : o'.wm = o.wm
  cache : CacheRel f o.opt.cache o'.opt.cache

/-- A part of a result with its slices renamed. -/
def FwPartOf.rename (f : ι → κ) (r : FwPartOf C ι) : FwPartOf C κ := ⟨r.cost, r.path, r.slices.image f⟩

theorem foldl_union_image (f : ι → κ) (l : List (Finset ι)) (s : Finset ι) :
    (l.map (Finset.image f)).foldl (· ∪ ·) (s.image f) = (l.foldl (· ∪ ·) s).image f := by
  induction l generalizing s with
  | nil => rfl
  | cons a l ih => rw [List.map_cons, List.foldl_cons, List.foldl_cons, ← Finset.image_union, ih]

theorem fwTotal_rename (pr : Printer C) (n : ℕ) (l : List (FwPartOf C ι)) :
    fwTotalWith pr n (l.map (FwPartOf.rename f)) = (fwTotalWith pr n l).map (FwResultOf.rename f) := by
  unfold fwTotalWith
  have e1 : (l.map (FwPartOf.rename f)).isEmpty = l.isEmpty := by cases l <;> rfl
  have e2 : (l.map (FwPartOf.rename f)).map FwPartOf.path = l.map FwPartOf.path := by rw [List.map_map]; rfl
  have e3 : (l.map (FwPartOf.rename f)).map FwPartOf.cost = l.map FwPartOf.cost := by rw [List.map_map]; rfl
  have e4 : (if l.isEmpty then List.replicate n ∅ else (l.map (FwPartOf.rename f)).map FwPartOf.slices) =
      (if l.isEmpty then List.replicate n ∅ else l.map FwPartOf.slices).map (Finset.image f) := by
    split
    · rw [List.map_replicate, Finset.image_empty]
    · rw [List.map_map, List.map_map]; rfl
  rw [e1, e2, e3, e4]
  dsimp only
  rcases mergePaths n (if l.isEmpty then List.replicate n [] else l.map FwPartOf.path) true with e | p
  · rfl
  dsimp only
  rcases (if l.isEmpty then List.replicate n ∅ else l.map FwPartOf.slices) with _ | ⟨s, ss⟩
  · rfl
  · rw [List.map_cons]
    dsimp only
    rw [foldl_union_image]
    rfl

theorem fwAnneal_rename (hf : Function.Injective f) (pr : Printer C) (E : SaEnv ι τ σ P V) {enumN : Finset ℕ → List ℕ} {enum : Finset κ → List κ}
    (hE : EnumOk E.enum) (hEN : EnumOk E.enumN) (he : EnumOk enum) (hen : EnumOk enumN) (N : NetworkRec ι) (cm : PyCM ι) (log2W : ℕ → W) (w : W) (us : ℤ) :
    Anneal.Rel (fun _ => True) (PyFwRel f) (fun a b => b = FwPartOf.rename f a) (fun a b => b = FwResultOf.rename f a) (fwAnnealWith pr E N cm log2W w us)
      (fwAnnealWith pr (E.withSets enumN enum) (N.rename f) (cm.rename f) log2W w us) where
  paths seed := by
    change randomPaths E.rng enumN E.fuel (E.rngSeed seed) (N.rename f).tsInds = randomPaths E.rng E.enumN E.fuel (E.rngSeed seed) N.tsInds
    rw [N.rename_tsInds, randomPaths_map hf E.rng hEN hen]
  goods _ _ _ _ _ := trivial
  make seed p _ _ := by
    have ht := N.tree_rename hf hE he p
    simp only [fwAnnealWith, SaEnv.withSets]
    revert ht
    rcases N.tree E.enum p with e | t <;> rcases (N.rename f).tree enum p with e' | t'
    all_goals intro ht
    all_goals first | exact ht.elim | exact ht | skip
    simp only
    rw [ht.order, ht.core, cm.core_rename hf, cm.widthCore_rename hf]
    rcases cm.core t.indsOrder t.core.dims with e | m <;> rcases cm.widthCore log2W w t.indsOrder t.core.dims with e' | wm
    · rfl
    · rfl
    · rfl
    have hb : ∀ {ν : Type} [DecidableEq ν] (l : List ν), toBits l ∅ = some ∅ := fun l => by
      unfold toBits; rw [if_pos (Finset.empty_subset _), Finset.image_empty]
    simp only [PyFw.make, hb, ht.core, Option.map_none, Option.mapM_none, Option.pure_def]
    rcases FwOpt.pyMake E.prng m wm t.core 0 (E.prngSeed seed) false ∅ none none none with _ | e | o
    · exact toPy_rel _ _
    · exact toPy_rel _ _
    · exact ⟨rfl, rfl, rfl, ht.cache hf⟩
  update n b o o' h := by
    simp only [fwAnnealWith, SaEnv.withSets, h.core, h.model, h.width]
    split
    · rfl
    · rcases o.opt.core.update E.prng o.cm o.wm (E.prob b) (sliceTurn n us) with (_ | _) | c
      · first | trivial | rfl
      · first | trivial | rfl
      · exact ⟨rfl, rfl, rfl, h.cache⟩
  log2 o o' h := by simp only [fwAnnealWith, SaEnv.withSets, h.core]
  finish o o' h := by
    have ht := getCtree_rename hf h.cache o.opt.core.inf.minCtree
    simp only [fwAnnealWith, h.core]
    revert ht
    rcases getCtree o.opt.cache o.opt.core.inf.minCtree with e | t <;> rcases getCtree o'.opt.cache o.opt.core.inf.minCtree with e' | t'
    all_goals intro ht
    all_goals first | exact ht.elim | exact ht | skip
    simp only
    rw [ht.path, h.cache.order, ofBits_map]
    rcases ofBits o.opt.cache.indsOrder o.opt.core.inf.ctree.nInds o.opt.core.minSlices with _ | sl
    · rfl
    simp only [Option.map_some]
    rcases t.path with _ | p
    · trivial
    · rfl
  trivial := by simp [fwAnnealWith, FwPartOf.rename]
  total l l' h := by
    have : l' = l.map (FwPartOf.rename f) := by
      induction h with
      | nil => rfl
      | cons h _ ih => rw [h, ih]; rfl
    subst this
    simp only [fwAnnealWith, NetworkRec.rename, List.length_map]
    rw [fwTotal_rename]
    rcases fwTotalWith pr N.tensors.length l with e | r <;> rfl

end
end TNCO
