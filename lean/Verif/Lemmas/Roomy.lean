import Verif.Lemmas.PathOut
import Verif.Lemmas.FiniteWidth
import Verif.Spec.Roomy

/-! The finite-width optimizer with a width limit that nothing exceeds. -/

namespace TNCO
open PTree

variable {σ P R W : Type}

/-- Every tensor of every tree with the same leaves fits. -/
def Room [LE W] (wm : WidthModel W) (c0 : CTree) (out : ISet) : Prop :=
  ∀ (c : CTree) (t : PTree), WellFormed c.tree t → c.tree.size = c0.tree.size → (∀ p < c0.tree.nLeaves, c.inds p = c0.inds p) →
    IndsExact c.inds out t → ∀ p < c.tree.size, wm.width (c.inds p) ≤ wm.maxWidth

theorem sliced_empty (m : CostModel R) : m.sliced ∅ = m := by
  unfold CostModel.sliced; simp

/-- The part of the walk that the infinite-memory optimizer has. -/
def FwWalk.inf (w : FwWalk σ R W) : Walk σ R := ⟨w.o.inf, w.posB, w.total⟩

/-- Everything that a step with room leaves alone. -/
structure Unsliced (o o' : FwOpt σ R W) : Prop where
  slices : o'.slices = ∅
  minSlices : o'.minSlices = o.minSlices
  maxNew : o'.maxNew = o.maxNew
  skip : o'.skip = o.skip

theorem Unsliced.trans {a b c : FwOpt σ R W} (h : Unsliced a b) (h' : Unsliced b c) : Unsliced a c :=
  ⟨h'.slices, h'.minSlices.trans h.minSlices, h'.maxNew.trans h.maxNew, h'.skip.trans h.skip⟩

section
variable [Zero R] [Add R] [Sub R] [LT R] [DecidableLT R] [LE P] [DecidableLE P]
variable [Add W] [Sub W] [LT W] [DecidableLT W] [LE W] [DecidableLE W]

/-- One iteration with room. -/
theorem fbody_room (g : FwPrng σ P) (m : CostModel R) (wm : WidthModel W) (prob : R → R → P) {w : FwWalk σ R W} (hs : w.o.slices = ∅)
    {posA posC posD posE : ℕ} (hw : wm.width (w.inf.newB posA posC posD) ≤ wm.maxWidth) :
    ∃ w', FwWalk.body g m wm prob w posA posC posD posE = .ok w' ∧
      w'.inf = Walk.body g.toPrng m prob w.inf posA posC posD posE ∧ Unsliced w.o w'.o := by
  have hw' : wm.width (((w.o.inf.ctree.inds posD).xor (w.o.inf.ctree.inds posC) ∪ w.o.inf.hyper posA ∪ w.o.inf.hyper w.posB) \ w.o.slices) ≤
      wm.maxWidth := by
    rw [hs, Finset.sdiff_empty]; exact hw
  unfold FwWalk.body
  dsimp only
  rw [if_pos hw']
  unfold Walk.body FwWalk.inf
  dsimp only
  rw [hs, sliced_empty]
  split
  · exact ⟨_, rfl, rfl, ⟨rfl, rfl, rfl, rfl⟩⟩
  · exact ⟨_, rfl, rfl, ⟨rfl, rfl, rfl, rfl⟩⟩

end

variable [AddCommGroup R] [LinearOrder R] [LinearOrder P] [AddCommGroup W] [LinearOrder W]

omit [AddCommGroup W] in
/-- The new tensor of a move fits. -/
theorem newB_fits {m : CostModel R} {wm : WidthModel W} {c0 : CTree} {out : ISet} (hroom : Room wm c0 out) {w : Walk σ R} {K : Ctx} {o o' : Bool} {A B : ℕ} {d e c : PTree}
    (h : WInv m (some out) false w (.frame o A c K) (fork o' B d e)) (hsz : w.o.ctree.tree.size = c0.tree.size)
    (hlf : ∀ p < c0.tree.nLeaves, w.o.ctree.inds p = c0.inds p) : wm.width (w.newB A c.root d.root) ≤ wm.maxWidth := by
  have hB : w.posB < w.o.ctree.tree.size := by
    have h1 := h.root
    rw [← h1]
    apply (h.wf.mem _).1
    rw [(Ctx.postorder_plug _ _).mem_iff, List.mem_append]
    exact Or.inl (root_mem _)
  obtain ⟨s', hw, -, hst, -⟩ := body_inv (⟨fun s => (0, s), fun _ => (0, w.o.prng)⟩ : Prng σ ℕ) m (fun _ _ => 0) h (by simp)
  have he : Walk.body (⟨fun s => (0, s), fun _ => (0, w.o.prng)⟩ : Prng σ ℕ) m (fun _ _ => 0) w A c.root d.root e.root =
      Walk.accept m w w.o.prng A c.root d.root e.root := rfl
  rw [he] at hw hst
  have hsz' : (Walk.accept m w w.o.prng A c.root d.root e.root).o.ctree.tree.size = w.o.ctree.tree.size := hst.size
  have hl : c0.tree.nLeaves = w.o.ctree.tree.nLeaves := by unfold Tree.nLeaves; rw [hsz]
  have := hroom _ _ hw.wf (hsz'.trans hsz) (fun p hp => (hst.leafInds p (hl ▸ hp)).trans (hlf p hp)) (indsExact_iff.2 (hw.sem out rfl)) w.posB
    (by rw [hsz']; exact hB)
  rw [Walk.accept_eq] at this
  simpa using this

/-- The walk with room. -/
theorem frun_room (g : FwPrng σ P) (m : CostModel R) (wm : WidthModel W) (prob : R → R → P) {c0 : CTree} {out : ISet} (hroom : Room wm c0 out) :
    ∀ (K : Ctx) (w : FwWalk σ R W) (s : PTree) (fuel : ℕ), WInv m (some out) false w.inf K s → (∃ o l r, s = fork o w.posB l r) → K.depth < fuel →
      w.o.slices = ∅ → w.o.inf.ctree.tree.size = c0.tree.size → (∀ p < c0.tree.nLeaves, w.o.inf.ctree.inds p = c0.inds p) →
      ∃ w', FwWalk.run g m wm prob fuel w = .ok w' ∧ Walk.run g.toPrng m prob fuel w.inf = some w'.inf ∧ Unsliced w.o w'.o := by
  intro K
  induction K with
  | top =>
    rintro w s fuel h - hf hs hsz hlf
    obtain ⟨f, rfl⟩ : ∃ f, fuel = f + 1 := ⟨fuel - 1, by omega⟩
    have hnn : getCtreeNN g.toPrng w.o.inf.ctree w.o.inf.disableShared w.o.inf.prng w.posB = (none, w.o.inf.prng) := by
      have hr : s.root = w.posB := h.root
      rw [← hr]; exact getCtreeNN_top g.toPrng _ _ h.wf
    refine ⟨w, by simp only [FwWalk.run, hnn], by simp only [Walk.run, FwWalk.inf, hnn], ⟨hs, rfl, rfl, rfl⟩⟩
  | frame o A c K ih =>
    rintro w s fuel h ⟨o1, x, y, rfl⟩ hf hs hsz hlf
    obtain ⟨f, rfl⟩ : ∃ f, fuel = f + 1 := ⟨fuel - 1, by simp only [Ctx.depth] at hf; omega⟩
    obtain ⟨o', d, e, s', hnn, hfork, -⟩ := getCtreeNN_frame g.toPrng (c := w.o.inf.ctree) w.o.inf.disableShared w.o.inf.prng h.wf
    set w1 : FwWalk σ R W := { w with o := { w.o with inf := { w.o.inf with prng := s' } } } with hw1
    have h1 : WInv m (some out) false w1.inf (.frame o A c K) (fork o' w.posB d e) := by
      rw [← hfork]
      exact ⟨h.wf, h.root, h.nodes, h.leaf, h.part, h.tail, h.total, h.sem, h.shr, h.dis⟩
    have hfit := newB_fits hroom h1 hsz hlf
    obtain ⟨w2, hb, hi, hu⟩ := fbody_room g m wm prob (w := w1) hs (posE := e.root) hfit
    obtain ⟨s2, hw2, ⟨o2, l2, r2, hs2⟩, hst, -⟩ := body_inv g.toPrng m prob h1 (by simp)
    rw [← hi] at hw2 hst
    have hp2 := hw2.root
    rw [hs2, root_fork] at hp2
    have hnl : c0.tree.nLeaves = w.o.inf.ctree.tree.nLeaves := by unfold Tree.nLeaves; rw [hsz]
    obtain ⟨w3, hr3, hr3', hu3⟩ := ih w2 s2 f hw2 ⟨o2, l2, r2, by rw [show w2.posB = A from hp2.symm]; exact hs2⟩
      (by simp only [Ctx.depth] at hf; omega) hu.slices (hst.size.trans hsz) (fun p hp => (hst.leafInds p (hnl ▸ hp)).trans (hlf p hp))
    refine ⟨w3, ?_, ?_, ?_⟩
    · simp only [FwWalk.run, hnn]
      rw [← hw1, hb]
      exact hr3
    · have hnn' : getCtreeNN g.toPrng w.inf.o.ctree w.inf.o.disableShared w.inf.o.prng w.inf.posB = (some (A, c.root, d.root, e.root), s') := hnn
      simp only [Walk.run, hnn']
      rw [hi] at hr3'
      exact hr3'
    · exact (⟨hs, rfl, rfl, rfl⟩ : Unsliced w.o w1.o).trans (hu.trans hu3)

/-- The invariant between updates: no slices, and the rest is as in the infinite-memory optimizer. -/
structure RoomInv (m : CostModel R) (out : ISet) (c0 : CTree) (o : FwOpt σ R W) : Prop where
  inv : ∃ t, OInv m (some out) false o.inf t
  size : o.inf.ctree.tree.size = c0.tree.size
  leaf : ∀ p < c0.tree.nLeaves, o.inf.ctree.inds p = c0.inds p
  slices : o.slices = ∅
  minSlices : o.minSlices = ∅

/-- One update. -/
theorem fupdate_room (g : FwPrng σ P) (m : CostModel R) (wm : WidthModel W) (prob : R → R → P) (us : Bool) {c0 : CTree} {out : ISet} (hroom : Room wm c0 out)
    {o : FwOpt σ R W} (h : RoomInv m out c0 o) :
    ∃ o', o.update g m wm prob us = .ok o' ∧ o.inf.update g.toPrng m prob = some o'.inf ∧ RoomInv m out c0 o' := by
  obtain ⟨t, ht⟩ := h.inv
  obtain ⟨oi, t', hup, hO, hst, -⟩ := update_inv g.toPrng m prob (by simp) ht
  have hnl : c0.tree.nLeaves = o.inf.ctree.tree.nLeaves := by unfold Tree.nLeaves; rw [h.size]
  have fin : ∀ o' : FwOpt σ R W, o'.inf = oi → o'.slices = ∅ → o'.minSlices = ∅ → RoomInv m out c0 o' := by
    rintro o' rfl h1 h2
    exact ⟨⟨t', hO⟩, hst.size.trans h.size, fun p hp => (hst.leafInds p (hnl ▸ hp)).trans (h.leaf p hp), h1, h2⟩
  unfold FwOpt.update
  rw [hup]
  unfold InfOpt.update at hup
  dsimp only at hup ⊢
  cases hpar : (o.inf.ctree.tree.nodes ((g.next o.inf.prng).1 % o.inf.ctree.tree.nLeaves)).parent with
  | none =>
    rw [hpar] at hup
    simp only [Option.some.injEq] at hup
    exact ⟨_, rfl, by rw [← hup], fin _ hup h.slices h.minSlices⟩
  | some B =>
    rw [hpar] at hup
    dsimp only at hup ⊢
    obtain ⟨K, s, hW, hfork, hdep⟩ := walk_start ht (g.next o.inf.prng).1 (g.next o.inf.prng).2 hpar
    obtain ⟨w', hr, hr', hu⟩ := frun_room g m wm prob hroom K
      ⟨{ o with inf := { o.inf with prng := (g.next o.inf.prng).2 } }, B, o.inf.totalCost⟩ s _ hW hfork hdep h.slices h.size h.leaf
    have hr2 : FwWalk.run g m wm prob o.inf.ctree.tree.size ⟨{ o with inf := { o.inf with prng := (g.next o.inf.prng).2 } }, B,
        InfOpt.totalCost { o.inf with prng := (g.next o.inf.prng).2 }⟩ = .ok w' := hr
    have hr2' : Walk.run g.toPrng m prob o.inf.ctree.tree.size ⟨{ o.inf with prng := (g.next o.inf.prng).2 }, B,
        InfOpt.totalCost { o.inf with prng := (g.next o.inf.prng).2 }⟩ = some w'.inf := hr'
    rw [hr2'] at hup
    rw [hr2]
    simp only [Option.map_some, Option.some.injEq] at hup
    have hsl : w'.o.updateSlices g m wm us = .ok w'.o := by
      unfold FwOpt.updateSlices
      simp [hu.slices]
    dsimp only
    rw [hsl]
    have hmin : w'.o.minSlices = ∅ := hu.minSlices.trans h.minSlices
    have key : w'.o.updateMin.inf = oi ∧ w'.o.updateMin.slices = ∅ ∧ w'.o.updateMin.minSlices = ∅ := by
      rw [← hup]
      unfold FwOpt.updateMin InfOpt.updateMin FwWalk.inf
      dsimp only
      split
      · exact ⟨rfl, hu.slices, hu.slices⟩
      · exact ⟨rfl, hu.slices, hmin⟩
    exact ⟨_, rfl, by rw [key.1], fin _ key.1 key.2.1 key.2.2⟩

/-- A history of updates. -/
theorem frun_history_room (g : FwPrng σ P) (m : CostModel R) (wm : WidthModel W) {c0 : CTree} {out : ISet} (hroom : Room wm c0 out)
    (ps : List ((R → R → P) × Bool)) : ∀ {o : FwOpt σ R W}, RoomInv m out c0 o →
    ∃ o', o.run g m wm ps = .ok o' ∧ o.inf.run g.toPrng m (ps.map Prod.fst) = some o'.inf ∧ RoomInv m out c0 o' := by
  induction ps with
  | nil => intro o h; exact ⟨o, rfl, rfl, h⟩
  | cons p ps ih =>
    intro o h
    obtain ⟨o1, h1, h2, h3⟩ := fupdate_room g m wm p.1 p.2 hroom h
    obtain ⟨o2, h4, h5, h6⟩ := ih h3
    refine ⟨o2, ?_, ?_, h6⟩
    · simp only [FwOpt.run, h1, h4]
    · simp only [List.map_cons, InfOpt.run, h2, Option.bind_some, h5]

/-- The index set of an inner node is that of the tensors below it. -/
theorem inds_kept {c c0 : CTree} {out : ISet} {K : Ctx} {s : PTree} (hwf : WellFormed c.tree (K.plug s)) (hsz : c.tree.size = c0.tree.size)
    (hlf : ∀ p < c0.tree.nLeaves, c.inds p = c0.inds p) (hex : IndsExact c.inds out (K.plug s)) :
    c.inds s.root = keptOf c0.inds out c0.tree.nLeaves s.leaves.toFinset ∧ s.leaves.toFinset ⊆ Finset.range c0.tree.nLeaves := by
  have hnl : c.tree.nLeaves = c0.tree.nLeaves := by unfold Tree.nLeaves; rw [hsz]
  have hlv : ∀ q, q ∈ s.leaves ∨ q ∈ K.lvs ↔ q < c0.tree.nLeaves := by
    intro q
    rw [← hnl]
    have := hwf.leaves q
    rw [(Ctx.leaves_plug K s).mem_iff, List.mem_append] at this
    exact this
  have hnd : (s.leaves ++ K.lvs).Nodup := by
    rw [← (Ctx.leaves_plug K s).nodup_iff]; exact leaves_nodup hwf.nodup
  refine ⟨?_, fun q hq => Finset.mem_range.2 ((hlv q).1 (Or.inl (List.mem_toFinset.1 hq)))⟩
  ext x
  rw [hex K s rfl x]
  simp only [keptOf, Finset.mem_inter, Finset.mem_biUnion, List.mem_toFinset, Finset.mem_union, Finset.mem_sdiff, Finset.mem_range]
  refine and_congr ⟨?_, ?_⟩ (or_congr Iff.rfl ⟨?_, ?_⟩)
  · rintro ⟨q, hq, hx⟩; exact ⟨q, hq, by rwa [← hlf q ((hlv q).1 (Or.inl hq))]⟩
  · rintro ⟨q, hq, hx⟩; exact ⟨q, hq, by rwa [hlf q ((hlv q).1 (Or.inl hq))]⟩
  · rintro ⟨q, hq, hx⟩
    exact ⟨q, ⟨(hlv q).1 (Or.inr hq), fun h => (List.nodup_append.1 hnd).2.2 q h q hq rfl⟩, by rwa [← hlf q ((hlv q).1 (Or.inr hq))]⟩
  · rintro ⟨q, ⟨hq, hn⟩, hx⟩
    exact ⟨q, ((hlv q).2 hq).resolve_left hn, by rwa [hlf q hq]⟩

omit [AddCommGroup W] in
/-- The condition on sets of tensors is about all trees. -/
theorem room_of_roomy {wm : WidthModel W} {c0 : CTree} {out : ISet} (h : Roomy wm c0.inds out c0.tree.nLeaves) : Room wm c0 out := by
  intro c t hwf hsz hlf hex p hp
  obtain ⟨K, s, rfl, rfl⟩ := exists_plug ((hwf.mem p).2 hp)
  obtain ⟨e, hs⟩ := inds_kept hwf hsz hlf hex
  rw [e]
  exact h _ hs

omit [LinearOrder P] in
/-- Nothing is sliced and nothing is drawn. -/
theorem getSlices_room (g : FwPrng σ P) {wm : WidthModel W} {c : CTree} {t : PTree} (hwf : WellFormed c.tree t)
    (hfit : ∀ p < c.tree.size, wm.width (c.inds p) ≤ wm.maxWidth) (skip : Option ISet) (s : σ) :
    getSlices g wm c skip (widthCache wm c) s = some (∅, s) := by
  unfold getSlices
  rw [show traverse c.fuel c.tree = _ from traverse_eq hwf (fuel := c.fuel) (le_refl _)]
  simp only [Option.map_some, Option.some.injEq]
  have : ∀ l : List ℕ, (∀ p ∈ l, p < c.tree.size) → l.foldl (sliceVisit g wm c skip (widthCache wm c)) (∅, s) = (∅, s) := by
    intro l
    induction l with
    | nil => intro _; rfl
    | cons p l ih =>
      intro h
      rw [List.foldl_cons]
      have e : sliceVisit g wm c skip (widthCache wm c) (∅, s) p = (∅, s) := by
        unfold sliceVisit
        exact if_neg (not_lt.2 (hfit p (h p (by simp))))
      rw [e]
      exact ih fun q hq => h q (by simp [hq])
  exact this _ fun p hp => (hwf.mem p).1 hp

/-- What a finite-width optimizer without slices is made of. -/
def FwOpt.ofInf (wm : WidthModel W) (c : CTree) (maxNew : ℕ) (skip : Option ISet) (o : InfOpt σ R) : FwOpt σ R W :=
  ⟨o, maxNew, widthCache wm c, skip, ∅, ∅⟩

/-- The C++ exceptions. -/
def toFwErr (e : String) : FwMakeErr := if e = "domain_error" then .domainError else .invalidArgument

/-- The constructor with room. -/
theorem fmake_room (g : FwPrng σ P) (m : CostModel R) {wm : WidthModel W} {c : CTree} {t : PTree} (hwf : WellFormed c.tree t)
    (hfit : ∀ p < c.tree.size, wm.width (c.inds p) ≤ wm.maxWidth) (maxNew : ℕ) (seed : σ) (dis : Bool) (skip : Option ISet) :
    FwOpt.make g m wm c maxNew seed dis skip none none none =
      (InfOpt.make m c seed dis none).map (fun r => match r with
        | .ok o => .ok (FwOpt.ofInf wm c maxNew skip o)
        | .error e => .error (toFwErr e)) := by
  have hall : allFit wm c ∅ = true := by
    unfold allFit
    simp only [List.all_eq_true, List.mem_range, decide_eq_true_eq, Finset.sdiff_empty]
    exact hfit
  unfold FwOpt.make FwOpt.makeWith InfOpt.make InfOpt.makeWith
  simp only [Option.getD_none, bind, pure, initSlices, getSlices_room g hwf hfit, Option.bind_some, sliced_empty, hall, Bool.not_true, Bool.or_self]
  split
  · rfl
  · cases CostCache.make c.fuel m c with
    | none => rfl
    | some k =>
      cases getCost c.fuel m c with
      | none => rfl
      | some mt =>
        simp only [Option.bind_some]
        unfold InfOpt.totalCost
        dsimp only
        split
        · rfl
        · rfl

/-- The Python constructor with room. -/
theorem fpyMake_room (g : FwPrng σ P) (m : CostModel R) {wm : WidthModel W} (hmono : ∀ {xs ys : ISet}, xs ⊆ ys → wm.width xs ≤ wm.width ys)
    {c : CTree} {t : PTree} (hwf : WellFormed c.tree t)
    (hfit : ∀ p < c.tree.size, wm.width (c.inds p) ≤ wm.maxWidth) (maxNew : ℕ) (seed : σ) (dis : Bool) (skip : ISet) :
    FwOpt.pyMake g m wm c maxNew seed dis skip none none none =
      (InfOpt.make m c seed dis none).map (fun r => match r with
        | .ok o => .ok (FwOpt.ofInf wm c maxNew (if skip = ∅ then none else some skip) o)
        | .error e => .error (toFwErr e)) := by
  unfold FwOpt.pyMake FwOpt.pyMakeWith
  rw [if_neg (by
    simp only [List.any_eq_true, List.mem_range, decide_eq_true_eq, not_exists, not_and, not_lt]
    intro p hp; exact (hmono Finset.inter_subset_left).trans (hfit p hp))]
  exact fmake_room g m hwf hfit maxNew seed dis _

/-- A tree fits itself. -/
theorem Room.self {wm : WidthModel W} {c : CTree} {out : ISet} (h : Room wm c out) {t : PTree} (hwf : WellFormed c.tree t) (hex : IndsExact c.inds out t) :
    ∀ p < c.tree.size, wm.width (c.inds p) ≤ wm.maxWidth := h c t hwf rfl (fun _ _ => rfl) hex

/-- The invariant holds after the constructor. -/
theorem roomInv_make {m : CostModel R} {wm : WidthModel W} {c : CTree} {t : PTree} (hwf : WellFormed c.tree t) {out : ISet} (hex : IndsExact c.inds out t)
    {seed : σ} {dis : Bool} {o : InfOpt σ R} (hmk : InfOpt.make m c seed dis none = some (.ok o)) (maxNew : ℕ) (skip : Option ISet) :
    RoomInv m out c (FwOpt.ofInf wm c maxNew skip o) := by
  obtain ⟨hO, hc, -⟩ := make_inv hwf hmk (out? := some out) (by rintro _ ⟨⟩; exact indsExact_iff.1 hex)
  refine ⟨⟨t, ?_⟩, by rw [show (FwOpt.ofInf wm c maxNew skip o).inf = o from rfl, hc], fun p _ => by
    rw [show (FwOpt.ofInf wm c maxNew skip o).inf = o from rfl, hc], rfl, rfl⟩
  exact ⟨hO.wf, hO.root, hO.nodes, hO.leaf, hO.part, hO.tail, hO.total, hO.sem, by simp, by simp⟩

end TNCO
