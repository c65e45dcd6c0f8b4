import Verif.Lemmas.Roomy
import Verif.Lemmas.ParallelRel
import Verif.Props.Anneal

/-! The two apps, with a width limit that nothing exceeds. -/

namespace TNCO
open PTree

variable {ι τ σ P V W C : Type} [DecidableEq ι] [LinearOrder P] [AddCommGroup W] [LinearOrder W] [IsOrderedAddMonoid W]

/-- There is room for the trees of a part of the network. -/
theorem room_part {N : NetworkRec ι} {cm : PyCM ι} {log2W : ℕ → W} {maxWidth : W} (hR : N.Roomy cm log2W maxWidth) {pt : PyTree ι}
    (hc : Component N.tsInds N.output pt) (hti : pt.core.Tidy pt.indsOrder)
    (hd : ∀ (j : ℕ) x, pt.indsOrder[j]? = some x → N.dim x = pt.core.dims.get j) {wm : WidthModel W}
    (hwm : cm.widthCore log2W maxWidth pt.indsOrder pt.core.dims = .ok wm) : Room wm pt.core (pt.core.inds (pt.core.tree.size - 1)) := by
  obtain ⟨hmw, -, hw⟩ := widthCore_get hwm hc.order hd
  intro c T hwf hsz hlf hex p hp
  have ho : Over pt c T := ⟨hwf, hsz, hlf, hex⟩
  obtain ⟨K, s, rfl, rfl⟩ := exists_plug ((hwf.mem p).2 hp)
  have hlv : ∀ q ∈ s.leaves, q < pt.core.tree.nLeaves := by
    intro q hq
    have e : c.tree.nLeaves = pt.core.tree.nLeaves := by unfold Tree.nLeaves; rw [hsz]
    rw [← e]
    refine (hwf.leaves q).1 ?_
    rw [(Ctx.leaves_plug K s).mem_iff, List.mem_append]
    exact Or.inl hq
  have hin : c.inds s.root ⊆ Finset.range pt.indsOrder.length := by
    intro x hx
    obtain ⟨⟨q, hq, hxq⟩, -⟩ := (hex K s rfl x).1 hx
    rw [hlf q (hlv q hq)] at hxq
    rw [← hc.nInds]
    exact hti.clean.inds_lt q hxq
  rw [hw _ hin, hc.names ho rfl, hmw]
  have hlen : ∀ q ∈ s.leaves, q < pt.tensorsPos.length := fun q hq => by rw [hc.len]; exact hlv q hq
  refine hR _ ?_ ?_
  · rw [toTerm_tensors]
    refine List.Nodup.map_on ?_ ?_
    · intro a ha b hb e
      rw [List.getD_eq_getElem _ _ (hlen a ha), List.getD_eq_getElem _ _ (hlen b hb)] at e
      exact (List.Nodup.getElem_inj_iff hc.nodup).1 e
    · have hnd : (s.leaves ++ K.lvs).Nodup := by
        rw [← (Ctx.leaves_plug K s).nodup_iff]; exact leaves_nodup hwf.nodup
      exact (List.nodup_append.1 hnd).1
  · rw [toTerm_tensors]
    intro i hi
    obtain ⟨q, hq, rfl⟩ := List.mem_map.1 hi
    rw [List.getD_eq_getElem _ _ (hlen q hq)]
    have := hc.lt _ (List.getElem_mem (hlen q hq))
    simpa [NetworkRec.tsInds] using this

/-- The two optimizers are in the same state. -/
structure RunRel (x : PyInf ι σ ℤ × CostModel ℤ) (y : FwRun ι σ W) : Prop where
  core : y.opt.core.inf = x.1.core
  cache : y.opt.cache = x.1.cache
  cm : y.cm = x.2
  room : ∃ c0 out, Room y.wm c0 out ∧ RoomInv y.cm out c0 y.opt.core

/-- The same part. -/
def PartRel (k : InfPartOf C) (k' : FwPartOf C ι) : Prop := k' = ⟨k.cost, k.path, ∅⟩

theorem ofBits_empty (order : List ι) (n : ℕ) : ofBits order n ∅ = some ∅ := by
  simp [ofBits, namesOf]

theorem partRel_map {l : List (InfPartOf C)} {l' : List (FwPartOf C ι)} (h : List.Forall₂ PartRel l l') :
    l'.map FwPartOf.cost = l.map InfPartOf.cost ∧ l'.map FwPartOf.path = l.map InfPartOf.path ∧ l'.map FwPartOf.slices = List.replicate l.length ∅ ∧
      l'.isEmpty = l.isEmpty := by
  induction h with
  | nil => simp
  | @cons k k' l l' h _ ih =>
    rw [PartRel] at h
    subst h
    obtain ⟨i1, i2, i3, -⟩ := ih
    simp [i1, i2, i3, List.replicate_succ]

theorem foldl_empty (n : ℕ) : (List.replicate n (∅ : Finset ι)).foldl (· ∪ ·) ∅ = ∅ := by
  induction n with
  | zero => rfl
  | succ n ih => rw [List.replicate_succ, List.foldl_cons, Finset.empty_union, ih]

theorem total_rel (pr : Printer C) {n : ℕ} (hn : n ≠ 0) {l : List (InfPartOf C)} {l' : List (FwPartOf C ι)} (h : List.Forall₂ PartRel l l') :
    OutRel (fun r r' => r' = r.unsliced ι) (some (infTotalWith pr n l)) (some (fwTotalWith pr n l')) := by
  obtain ⟨h1, h2, h3, h4⟩ := partRel_map h
  unfold infTotalWith fwTotalWith
  dsimp only
  rw [h1, h2, h3, h4]
  have hsl : (if l.isEmpty = true then List.replicate n ∅ else List.replicate l.length (∅ : Finset ι)) =
      List.replicate (if l.isEmpty = true then List.replicate n [] else l.map InfPartOf.path).length ∅ := by
    split <;> simp
  have hne : (if l.isEmpty = true then List.replicate n [] else l.map InfPartOf.path).length ≠ 0 := by
    split
    · simpa using hn
    · next h => cases l <;> simp_all
  rw [hsl]
  generalize (if l.isEmpty = true then List.replicate n [] else l.map InfPartOf.path) = paths at hne ⊢
  cases mergePaths n paths true with
  | error e => rfl
  | ok path =>
    obtain ⟨k, hk⟩ : ∃ k, paths.length = k + 1 := ⟨paths.length - 1, by omega⟩
    simp only [hk, List.replicate_succ, OutRel, InfResultOf.unsliced, foldl_empty]

/-- The Python constructors. -/
theorem make_rel {E : SaEnv ι τ σ P V} {N : NetworkRec ι} {cm : PyCM ι} (pr : Printer C) (hN : N.Plain) (he : EnumOk E.enum) (hcm : cm.Ok) {log2W : ℕ → W}
    (hlog : ∀ n, 0 ≤ log2W n) {maxWidth : W} (hmw : 0 ≤ maxWidth) (hR : N.Roomy cm log2W maxWidth) (us : ℤ)
    {ps : List (List (ℕ × ℕ))} (hP : PartPaths N.tsInds ps) {p : List (ℕ × ℕ)} (hp : p ∈ ps) (hne : p ≠ []) (seed : ℕ) :
    OutRel RunRel ((infAnnealWith pr E N cm).make seed p) ((fwAnnealWith pr E N cm log2W maxWidth us).make seed p) := by
  obtain ⟨pt, T, F, u, hpt, hc, ho, hti, hv, hd, hF, hu, hTu, htch, hord⟩ := part_tree hN he hP hp hne
  simp only [infAnnealWith, fwAnnealWith, hpt]
  cases hm : cm.core pt.indsOrder pt.core.dims with
  | error e => simp only [OutRel]
  | ok m =>
    obtain ⟨wm, hwm⟩ : ∃ wm, cm.widthCore log2W maxWidth pt.indsOrder pt.core.dims = .ok wm := by
      unfold PyCM.core at hm
      unfold PyCM.widthCore
      dsimp only at hm ⊢
      split
      · unfold simpleWidthModel
        rw [if_neg (not_lt.2 hmw)]
        exact ⟨_, rfl⟩
      next h0 =>
      rw [if_neg h0] at hm
      split
      · next h => rw [if_pos h] at hm; cases hm
      unfold sparseWidthModel
      rw [if_neg (not_lt.2 hmw), if_neg (by have := hcm h0; omega)]
      exact ⟨_, rfl⟩
    simp only [hwm]
    have hroom := room_part hR hc hti hd hwm
    obtain ⟨-, hoff, -⟩ := widthCore_get hwm hc.order hd
    have hlaw := (offered_lawful hlog (show OfferedWidth log2W pt.core.dims wm from hoff)).1
    have hfit := hroom.self ho.wf ho.exact
    have htb : toBits pt.indsOrder (∅ : Finset ι) = some ∅ := by simp [toBits]
    simp only [PyInf.make, PyFw.make, htb, Option.mapM_none, Option.map_none, pure]
    rw [fpyMake_room E.prng m hlaw.mono ho.wf hfit 0 (E.prngSeed seed) false ∅]
    rcases hmk : InfOpt.make m pt.core (E.prngSeed seed) false none with _ | e | o
    · trivial
    · rfl
    · exact ⟨rfl, rfl, rfl, _, _, hroom, roomInv_make ho.wf ho.exact hmk 0 _⟩

/-- The two apps do the same. -/
theorem anneal_room {E : SaEnv ι τ σ P V} {N : NetworkRec ι} {cm : PyCM ι} (pr : Printer C) (hE : E.Ok N) (hN : N.Plain) (hn : N.tensors ≠ []) (hcm : cm.Ok)
    {log2W : ℕ → W} (hlog : ∀ n, 0 ≤ log2W n) {maxWidth : W} (hmw : 0 ≤ maxWidth) (hR : N.Roomy cm log2W maxWidth) {us : ℤ} (hus : us ≠ 0) :
    Anneal.Rel (fun p => ∃ ps, PartPaths N.tsInds ps ∧ p ∈ ps) RunRel PartRel (fun r r' => r' = r.unsliced ι)
      (infAnnealWith pr E N cm) (fwAnnealWith pr E N cm log2W maxWidth us) where
  paths _ := rfl
  goods seed ps h p hp := by
    obtain ⟨ps', h1, hP⟩ := randomPaths_parts hE.rng hE.enumN (E.rngSeed seed) N.tsInds hE.fuel
    have h' : randomPaths E.rng E.enumN E.fuel (E.rngSeed seed) N.tsInds = some (.ok ps) := h
    rw [h1] at h'
    cases h'
    exact ⟨_, hP, hp⟩
  make seed p hne := by
    rintro ⟨ps, hP, hp⟩
    exact make_rel pr hN hE.enum hcm hlog hmw hR us hP hp hne seed
  update n b := by
    rintro ⟨o, cmx⟩ ⟨o', cmy, wmy⟩ ⟨h1, h2, h3, c0, out, hroom, hinv⟩
    dsimp only at h1 h2 h3 hroom hinv
    subst h3
    obtain ⟨c', hu, hi, hinv'⟩ := fupdate_room E.prng cmy wmy (E.prob b) (sliceTurn n us) hroom hinv
    simp only [infAnnealWith, fwAnnealWith, if_neg hus, hu]
    rw [h1] at hi
    rw [hi]
    exact ⟨rfl, h2, rfl, c0, out, hroom, hinv'⟩
  log2 o o' h := by
    simp only [infAnnealWith, fwAnnealWith, h.core]
  finish := by
    rintro ⟨o, cmx⟩ ⟨o', cmy, wmy⟩ ⟨h1, h2, h3, c0, out, hroom, hinv⟩
    dsimp only at h1 h2 h3 hroom hinv
    simp only [infAnnealWith, fwAnnealWith, h1, h2, hinv.minSlices, ofBits_empty]
    rcases getCtree o.cache o.core.minCtree with e | t
    · rfl
    · dsimp only
      rcases t.path with _ | p
      · trivial
      · rfl
  trivial := rfl
  total l l' h := total_rel pr (by simpa using hn) h

theorem roomy_nonneg {N : NetworkRec ι} {cm : PyCM ι} {log2W : ℕ → W} (hlog : ∀ n, 0 ≤ log2W n) {maxWidth : W} (hR : N.Roomy cm log2W maxWidth) (hn : N.tensors ≠ []) :
    0 ≤ maxWidth := by
  refine le_trans ?_ (hR (.tensor 0) (by simp [Term.tensors]) (by simpa [Term.tensors] using List.length_pos_iff.2 hn))
  refine le_trans ?_ (nameWidth_mono hlog (Finset.empty_subset _))
  unfold nameWidth
  split
  · simp
  · simp [hlog]

end TNCO
