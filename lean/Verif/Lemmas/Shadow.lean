import Verif.Lemmas.InfMem

/-! A run with any arithmetic is followed, decision by decision, by a run with exact costs. -/

namespace TNCO
open PTree

section
variable {σ P R G : Type} [Zero R] [Add R] [Sub R] [LT R] [DecidableLT R] [LE P] [DecidableLE P]
variable [AddCommGroup G] [LinearOrder G]

/-- A relation between costs that the sums of the optimizer respect: `C` for contraction costs, `D` for partial costs. -/
structure ShadowRel (m : CostModel R) (m' : CostModel G) (C D : R → G → Prop) : Prop where
  get : ∀ s, C (m.get s) (m'.get s)
  zero : D 0 0
  fresh : ∀ {z c x a y b}, C z c → D x a → D y b → D (z + x + y) (c + a + b)
  sum : ∀ {x a y b z c}, D x a → D y b → C z c → D (x + y + z) (a + b + c)

/-- Two optimizers in the same state except for the costs, which are related. -/
structure Shadow (C D : R → G → Prop) (o : InfOpt σ R) (v : InfOpt σ G) : Prop where
  ctree : o.ctree = v.ctree
  hyper : o.hyper = v.hyper
  prng : o.prng = v.prng
  dis : o.disableShared = v.disableShared
  cc : ∀ p, (v.ctree.tree.size + 1) / 2 ≤ p → p < v.ctree.tree.size → C (o.cost.contractionCost p) (v.cost.contractionCost p)
  pc : ∀ p, D (o.cost.partialCost p) (v.cost.partialCost p)

/-- The generator that makes the decision `b`. -/
def deciding (g : Prng σ P) (b : Bool) : Prng σ ℕ := ⟨g.next, fun s => (if b then 0 else 1, (g.uniform s).2)⟩

omit [LE P] [DecidableLE P] in
theorem getCtreeNN_deciding (g : Prng σ P) (b : Bool) (c : CTree) (dis : Bool) (s : σ) (p : ℕ) :
    getCtreeNN (deciding g b) c dis s p = getCtreeNN g c dis s p := rfl

variable {m : CostModel R} {m' : CostModel G} {C D : R → G → Prop}

omit [Zero R] [Add R] [Sub R] [LT R] [DecidableLT R] [AddCommGroup G] [LinearOrder G] in
theorem rel_update {E : R → G → Prop} {f : ℕ → R} {f' : ℕ → G} {q : ℕ → Prop} (h : ∀ p, q p → E (f p) (f' p)) {i : ℕ} {x : R} {x' : G}
    (hx : E x x') : ∀ p, q p → E (Function.update f i x p) (Function.update f' i x' p) := by
  intro p hp
  by_cases e : p = i
  · rw [e, Function.update_self, Function.update_self]; exact hx
  · rw [Function.update_of_ne e, Function.update_of_ne e]; exact h p hp

theorem size_swapWithNN (T : Tree) (p : ℕ) : (T.swapWithNN p).size = T.size := by
  unfold Tree.swapWithNN
  repeat' split
  all_goals rfl

theorem fork_inner {T : Tree} {K : Ctx} {o : Bool} {B : ℕ} {l r : PTree} (h : WellFormed T (K.plug (fork o B l r))) :
    (T.size + 1) / 2 ≤ B ∧ B < T.size := by
  have hB : B < T.size := by
    rw [← h.mem, (K.postorder_plug _).mem_iff]
    have := (fork o B l r).root_mem
    rw [root_fork] at this
    simp [this]
  have he := h.enc
  rw [Ctx.encodes_plug, encodes_fork] at he
  refine ⟨not_lt.1 fun hlt => ?_, hB⟩
  have := (h.linked.leaf0 B hB).2 hlt
  rw [he.2.1] at this
  cases o <;> simp [mkNode] at this

theorem body_shadow (hr : ShadowRel m m' C D) (g : Prng σ P) (prob : R → R → P) {w : Walk σ R} {v : Walk σ G} (h : Shadow C D w.o v.o)
    (hB : w.posB = v.posB) {A c d e : ℕ} (h1 : (v.o.ctree.tree.size + 1) / 2 ≤ A ∧ A < v.o.ctree.tree.size)
    (h2 : (v.o.ctree.tree.size + 1) / 2 ≤ v.posB ∧ v.posB < v.o.ctree.tree.size) :
    ∃ b, Shadow C D (Walk.body g m prob w A c d e).o (Walk.body (deciding g b) m' (fun _ _ => 0) v A c d e).o ∧
      (Walk.body g m prob w A c d e).posB = A ∧ (Walk.body (deciding g b) m' (fun _ _ => 0) v A c d e).posB = A ∧
      (Walk.body g m prob w A c d e).o.minCtree = w.o.minCtree ∧ (Walk.body g m prob w A c d e).o.minTotal = w.o.minTotal := by
  obtain ⟨hc, hh, hp, hd, hcc, hpc⟩ := h
  unfold Walk.body
  simp only
  split
  · refine ⟨true, ?_⟩
    simp only [deciding, if_true, le_refl]
    rw [hB, hc, hh]
    have e1 : ∀ p, (v.o.ctree.tree.size + 1) / 2 ≤ p ∧ p < v.o.ctree.tree.size → C
        (Function.update (Function.update w.o.cost.contractionCost v.posB
          (m.contractionCost ((v.o.ctree.inds d).xor (v.o.ctree.inds c) ∪ v.o.hyper A ∪ v.o.hyper v.posB) (v.o.ctree.inds d) (v.o.ctree.inds c))) A
          (m.contractionCost (v.o.ctree.inds A) ((v.o.ctree.inds d).xor (v.o.ctree.inds c) ∪ v.o.hyper A ∪ v.o.hyper v.posB) (v.o.ctree.inds e)) p)
        (Function.update (Function.update v.o.cost.contractionCost v.posB
          (m'.contractionCost ((v.o.ctree.inds d).xor (v.o.ctree.inds c) ∪ v.o.hyper A ∪ v.o.hyper v.posB) (v.o.ctree.inds d) (v.o.ctree.inds c))) A
          (m'.contractionCost (v.o.ctree.inds A) ((v.o.ctree.inds d).xor (v.o.ctree.inds c) ∪ v.o.hyper A ∪ v.o.hyper v.posB) (v.o.ctree.inds e)) p) :=
      rel_update (rel_update (fun p hp => hcc p hp.1 hp.2) (hr.get _)) (hr.get _)
    have e2 := rel_update (q := fun _ => True) (E := D) (fun p _ => hpc p) (i := v.posB) (hr.sum (hpc d) (hpc c) (e1 v.posB h2))
    refine ⟨⟨rfl, rfl, by simp only [hp], hd, fun p p1 p2 => ?_, fun p => ?_⟩, ?_⟩
    · simp only [size_swapWithNN] at p1 p2
      exact e1 p ⟨p1, p2⟩
    · exact rel_update e2 (hr.sum (e2 v.posB trivial) (e2 e trivial) (e1 A h1)) p trivial
    · simp
  · refine ⟨false, ?_⟩
    simp only [deciding, Bool.false_eq_true, if_false, if_neg (show ¬ (1 : ℕ) ≤ 0 by decide)]
    rw [hB]
    have e2 := rel_update (q := fun _ => True) (E := D) (fun p _ => hpc p) (i := v.posB)
      (hr.sum (hpc d) (hpc e) (hcc v.posB h2.1 h2.2))
    refine ⟨⟨hc, hh, by simp only [hp], hd, hcc, fun p => ?_⟩, by simp⟩
    exact rel_update e2 (hr.sum (e2 v.posB trivial) (e2 c trivial) (hcc A h1.1 h1.2)) p trivial

theorem run_shadow (hr : ShadowRel m m' C D) (g : Prng σ P) (prob : R → R → P) {out? : Option ISet} {sh : Bool}
    (hout : sh = true → out?.isSome = true) :
    ∀ (K : Ctx) (w : Walk σ R) (v : Walk σ G) (s : PTree) (fuel : ℕ), WInv m' out? sh v K s → Shadow C D w.o v.o → w.posB = v.posB →
      (∃ o l r, s = fork o v.posB l r) → K.depth < fuel →
      ∃ w' v' s', Walk.run g m prob fuel w = some w' ∧ WInv m' out? sh v' .top s' ∧ Shadow C D w'.o v'.o ∧ Static v.o v'.o ∧
        w'.o.minCtree = w.o.minCtree ∧ w'.o.minTotal = w.o.minTotal := by
  intro K
  induction K with
  | top =>
    rintro w v s fuel h hS hB - hf
    obtain ⟨f, rfl⟩ : ∃ f, fuel = f + 1 := ⟨fuel - 1, by omega⟩
    have hnn : getCtreeNN g w.o.ctree w.o.disableShared w.o.prng w.posB = (none, w.o.prng) := by
      rw [hS.ctree, hB, ← h.root]
      exact getCtreeNN_top g _ _ h.wf
    exact ⟨w, v, s, by simp only [Walk.run, hnn], h, hS, Static.rfl' _, rfl, rfl⟩
  | frame o A c K ih =>
    rintro w v s fuel h hS hB ⟨o1, x, y, rfl⟩ hf
    obtain ⟨f, rfl⟩ : ∃ f, fuel = f + 1 := ⟨fuel - 1, by simp only [Ctx.depth] at hf; omega⟩
    obtain ⟨o', d, e, s', hnn, hfork, hint⟩ := getCtreeNN_frame g (c := v.o.ctree) v.o.disableShared v.o.prng h.wf
    have hnn' : getCtreeNN g w.o.ctree w.o.disableShared w.o.prng w.posB = (some (A, c.root, d.root, e.root), s') := by
      rw [hS.ctree, hS.dis, hS.prng, hB]; exact hnn
    simp only [Walk.run, hnn']
    have h1 : WInv m' out? sh { v with o := { v.o with prng := s' } } (.frame o A c K) (fork o' v.posB d e) := by
      rw [← hfork]
      exact ⟨h.wf, h.root, h.nodes, h.leaf, h.part, h.tail, h.total, h.sem, h.shr, h.dis⟩
    have hsh : sh = true → out?.isSome = true ∧ (v.o.ctree.inds d.root ∩ v.o.ctree.inds c.root).Nonempty := by
      intro hs
      refine ⟨hout hs, hint (h.dis hs) ?_⟩
      have a1 := h.shr hs
      have a2 := h.nodes
      simp only [Ctx.plug] at a1 a2
      rw [Ctx.all_plug, all_fork_symm ShQ.symm] at a1
      rw [Ctx.all_plug, all_fork_symm NodeInv.symm, all_fork_symm NodeInv.symm] at a2
      simp only [root_fork] at a1 a2
      obtain ⟨z, hz⟩ := a1.2.1
      have hz' := Finset.mem_inter.1 hz
      have := a2.2.2.1.1.1.2 hz'.1
      rcases Finset.mem_union.1 this with h | h
      · exact Or.inl ⟨z, Finset.mem_inter.2 ⟨h, hz'.2⟩⟩
      · exact Or.inr ⟨z, Finset.mem_inter.2 ⟨h, hz'.2⟩⟩
    have hA : (v.o.ctree.tree.size + 1) / 2 ≤ A ∧ A < v.o.ctree.tree.size := fork_inner (K := K) (o := o) h.wf
    have hB' := fork_inner h.wf
    obtain ⟨b, hS2, hB2, hB3, hm1, hm2⟩ := body_shadow (w := { w with o := { w.o with prng := s' } }) (v := { v with o := { v.o with prng := s' } })
      hr g prob ⟨hS.ctree, hS.hyper, rfl, hS.dis, hS.cc, hS.pc⟩ hB (c := c.root) (d := d.root) (e := e.root) hA hB'
    obtain ⟨s2, hw2, ⟨o2, l2, r2, hs2⟩, hst, -, -⟩ := body_inv (deciding g b) m' (fun _ _ => 0) h1 hsh
    obtain ⟨w3, v3, s3, hr3, hw3, hS3, hst3, hm3, hm4⟩ := ih _ _ s2 f hw2 hS2 (by rw [hB2, hB3]) ⟨o2, l2, r2, by rw [hB3]; exact hs2⟩
      (by simp only [Ctx.depth] at hf; omega)
    exact ⟨w3, v3, s3, hr3, hw3, hS3,
      (⟨rfl, rfl, rfl, rfl, fun _ _ => rfl, rfl⟩ : Static v.o { v.o with prng := s' }).trans (hst.trans hst3), hm3.trans hm1, hm4.trans hm2⟩

/-- How an update treats the recorded minimum, with the comparison of the arithmetic at hand. -/
def MinStepR (o o' : InfOpt σ R) : Prop :=
  (o'.totalCost < o.minTotal ∧ o'.minTotal = o'.totalCost ∧ o'.minCtree = o'.ctree) ∨
  ((¬ o'.totalCost < o.minTotal ∨ o.ctree.tree.size = 1) ∧ o'.minTotal = o.minTotal ∧ o'.minCtree = o.minCtree)

theorem update_shadow (hr : ShadowRel m m' C D) (g : Prng σ P) (prob : R → R → P) {out? : Option ISet} {sh : Bool}
    (hout : sh = true → out?.isSome = true) {o : InfOpt σ R} {v : InfOpt σ G} {t : PTree} (h : OInv m' out? sh v t) (hS : Shadow C D o v) :
    ∃ o' v' t', o.update g m prob = some o' ∧ OInv m' out? sh v' t' ∧ Shadow C D o' v' ∧ Static v v' ∧ MinStepR o o' := by
  obtain ⟨oc, od, op, om, ok, oh, omt⟩ := o
  obtain ⟨h1, h2, h3, h4, hcc, hpc⟩ := hS
  simp only at h1 h2 h3 h4 hcc hpc
  subst h1 h2 h3 h4
  have hwf : WellFormed v.ctree.tree t := h.wf
  obtain ⟨hsz, hlen, hpos⟩ := hwf.size_eq
  have hnl : 0 < v.ctree.tree.nLeaves := by unfold Tree.nLeaves; omega
  unfold InfOpt.update
  simp only
  generalize hq : (g.next v.prng).1 % v.ctree.tree.nLeaves = q
  have hqn : q < v.ctree.tree.nLeaves := by rw [← hq]; exact Nat.mod_lt _ hnl
  have hqs : q < v.ctree.tree.size := by unfold Tree.nLeaves at hqn; omega
  have hl := hwf.linked
  cases hpar : (v.ctree.tree.nodes q).parent with
  | none =>
    have hqr := (hl.root q hqs).1 hpar
    refine ⟨_, { v with prng := (g.next v.prng).2 }, t, rfl, ⟨h.wf, h.root, h.nodes, h.leaf, h.part, h.tail, h.total, h.sem, h.shr, h.dis⟩,
      ⟨rfl, rfl, rfl, rfl, hcc, hpc⟩, ⟨rfl, rfl, rfl, rfl, fun _ _ => rfl, rfl⟩, Or.inr ⟨Or.inr ?_, rfl, rfl⟩⟩
    change v.ctree.tree.size = 1
    unfold Tree.nLeaves at *; omega
  | some B =>
    simp only
    obtain ⟨K, s, rfl, hsr⟩ := exists_plug ((hwf.mem q).2 hqs)
    have henc := hwf.enc
    rw [Ctx.encodes_plug] at henc
    have hp := encodes_root_parent henc.2
    rw [hsr, hpar] at hp
    cases K with
    | top => simp [Ctx.par] at hp
    | frame ob p c K =>
      simp only [Ctx.par, Option.some.injEq] at hp
      subst hp
      have hpart := h.part
      simp only [Ctx.plug] at hpart
      rw [Ctx.all_plug] at hpart
      have hW : WInv m' out? sh ⟨{ v with prng := (g.next v.prng).2 }, B, v.totalCost⟩ K (fork ob B s c) := by
        refine ⟨h.wf, by simp, h.nodes, h.leaf, hpart.2, ?_, h.total, h.sem, h.shr, h.dis⟩
        exact Ctx.tail_of_all (fun _ _ _ _ _ _ hh => hh) hpart.1
      have hdep : K.depth < v.ctree.tree.size := by
        have h1 := K.depth_le
        have h2 := hwf.nodup.length_le_of_subset (l₂ := List.range v.ctree.tree.size)
          (fun x hx => by simpa using (hwf.mem x).1 hx)
        have h3 := ((Ctx.frame ob B c K).postorder_plug s).length_eq
        simp only [Ctx.poss, List.length_append, List.length_cons, List.length_range] at h2 h3
        omega
      obtain ⟨w', v', s', hr1, hw', hS', hst, hm1, hm2⟩ := run_shadow hr g prob hout K
        ⟨⟨v.ctree, v.disableShared, (g.next v.prng).2, om, ok, v.hyper, omt⟩, B,
          (⟨v.ctree, v.disableShared, (g.next v.prng).2, om, ok, v.hyper, omt⟩ : InfOpt σ R).totalCost⟩
        ⟨{ v with prng := (g.next v.prng).2 }, B, v.totalCost⟩ _ v.ctree.tree.size hW
        ⟨rfl, rfl, rfl, rfl, hcc, hpc⟩ rfl ⟨ob, s, c, rfl⟩ hdep
      refine ⟨w'.o.updateMin, v'.o, s', ?_, (oinv_of_winv hw').1, ?_,
        (⟨rfl, rfl, rfl, rfl, fun _ _ => rfl, rfl⟩ : Static v { v with prng := (g.next v.prng).2 }).trans hst, ?_⟩
      · rw [hr1]; rfl
      · unfold InfOpt.updateMin
        split
        · exact ⟨hS'.ctree, hS'.hyper, hS'.prng, hS'.dis, hS'.cc, hS'.pc⟩
        · exact hS'
      · unfold InfOpt.updateMin MinStepR
        split
        · next hlt =>
          rw [hm2] at hlt
          exact Or.inl ⟨hlt, rfl, rfl⟩
        · next hlt =>
          rw [hm2] at hlt
          exact Or.inr ⟨Or.inl hlt, hm2, hm1⟩

/-- Any history of updates. -/
theorem history_shadow (hr : ShadowRel m m' C D) (g : Prng σ P) {out? : Option ISet} {sh : Bool} (hout : sh = true → out?.isSome = true)
    (probs : List (R → R → P)) : ∀ {o : InfOpt σ R} {v : InfOpt σ G} {t : PTree}, OInv m' out? sh v t → Shadow C D o v →
      ∃ o' v' t', o.run g m probs = some o' ∧ OInv m' out? sh v' t' ∧ Shadow C D o' v' ∧ Static v v' := by
  induction probs with
  | nil => intro o v t h hS; exact ⟨o, v, t, rfl, h, hS, Static.rfl' _⟩
  | cons p ps ih =>
    intro o v t h hS
    obtain ⟨o1, v1, t1, h1, hi1, hS1, hs1, -⟩ := update_shadow hr g p hout h hS
    obtain ⟨o2, v2, t2, h2, hi2, hS2, hs2⟩ := ih hi1 hS1
    exact ⟨o2, v2, t2, by simp [InfOpt.run, h1, h2], hi2, hS2, hs1.trans hs2⟩

omit [Sub R] [LT R] [DecidableLT R] [LinearOrder G] in
/-- Caches built from scratch. -/
theorem visit_shadow (hr : ShadowRel m m' C D) {c : CTree} (l : List ℕ) : ∀ (k : CostCache R) (k' : CostCache G),
    (∀ p, D (k.partialCost p) (k'.partialCost p)) →
    (∀ p, D ((l.foldl (CostCache.visit m c) k).partialCost p) ((l.foldl (CostCache.visit m' c) k').partialCost p)) ∧
    ∀ p, (p ∈ l ∨ C (k.contractionCost p) (k'.contractionCost p)) → (c.tree.nodes p).c0 ≠ none → (c.tree.nodes p).c1 ≠ none →
      C ((l.foldl (CostCache.visit m c) k).contractionCost p) ((l.foldl (CostCache.visit m' c) k').contractionCost p) := by
  induction l with
  | nil => intro k k' h; exact ⟨h, fun p hp _ _ => by simpa using hp⟩
  | cons q l ih =>
    intro k k' h
    simp only [List.foldl_cons]
    have key : (∀ p, D ((CostCache.visit m c k q).partialCost p) ((CostCache.visit m' c k' q).partialCost p)) ∧
        ∀ p, (p = q ∨ C (k.contractionCost p) (k'.contractionCost p)) → (c.tree.nodes p).c0 ≠ none → (c.tree.nodes p).c1 ≠ none →
          C ((CostCache.visit m c k q).contractionCost p) ((CostCache.visit m' c k' q).contractionCost p) := by
      unfold CostCache.visit
      split
      · next b d h0 h1 =>
        simp only
        refine ⟨fun p => rel_update (q := fun _ => True) (fun p _ => h p) (hr.fresh (hr.get _) (h b) (h d)) p trivial, fun p hp _ _ => ?_⟩
        by_cases e : p = q
        · rw [e, Function.update_self, Function.update_self]; exact hr.get _
        · rw [Function.update_of_ne e, Function.update_of_ne e]; exact hp.resolve_left e
      · next hx =>
        simp only
        refine ⟨fun p => rel_update (q := fun _ => True) (fun p _ => h p) hr.zero p trivial, fun p hp p0 p1 => ?_⟩
        by_cases e : p = q
        · subst e
          obtain ⟨b, hb⟩ := Option.ne_none_iff_exists'.1 p0
          obtain ⟨d, hd⟩ := Option.ne_none_iff_exists'.1 p1
          exact absurd hd (hx b d hb)
        · rw [Function.update_of_ne e, Function.update_of_ne e]; exact hp.resolve_left e
    obtain ⟨i1, i2⟩ := ih _ _ key.1
    refine ⟨i1, fun p hp p0 p1 => i2 p ?_ p0 p1⟩
    rcases hp with hp | hp
    · rcases List.mem_cons.1 hp with hp | hp
      · exact Or.inr (key.2 p (Or.inl hp) p0 p1)
      · exact Or.inl hp
    · exact Or.inr (key.2 p (Or.inr hp) p0 p1)

/-- The constructor, with any test of the total cost. -/
theorem make_shadow (hr : ShadowRel m m' C D) {bad : R → Prop} [DecidablePred bad] {c : CTree} {seed : σ} {dis : Bool} {minC : Option CTree}
    {o : InfOpt σ R} {t : PTree} (hwf : WellFormed c.tree t) (hmk : InfOpt.makeWith bad m c seed dis minC = some (.ok o)) {out? : Option ISet}
    (hsem : ∀ out, out? = some out → t.Sem c.inds out) :
    ∃ v, OInv m' out? (out?.isSome && !dis) v t ∧ Shadow C D o v ∧ o.ctree = c ∧ o.disableShared = dis ∧
      o.minCtree = minC.getD c ∧ getCost (minC.getD c).fuel m (minC.getD c) = some o.minTotal ∧
      ¬ bad o.totalCost ∧ ¬ bad o.minTotal ∧ c.isValid (!dis) = true ∧ (minC.getD c).isValid (!dis) = true := by
  unfold InfOpt.makeWith at hmk
  simp only [Bool.or_eq_true, Bool.not_eq_true', bind, pure] at hmk
  split at hmk
  · simp at hmk
  next hv =>
  simp only [not_or, Bool.not_eq_false] at hv
  obtain ⟨hv1, hv2⟩ := hv
  obtain ⟨hd, hloc, hsh⟩ := (ctree_isValid_iff hwf _).1 hv1
  obtain ⟨k, hk, -⟩ := costCache_make (m := m') hwf hloc (fuel := c.fuel) (le_refl _)
  have hk0 := hk
  unfold CostCache.make CTree.fuel at hmk hk0
  rw [traverse_eq hwf (le_refl _)] at hmk hk0
  simp only [Option.map_some, Option.bind_some, Option.some.injEq] at hmk hk0
  change (getCost (minC.getD c).fuel m (minC.getD c)).bind _ = _ at hmk
  cases hg : getCost (minC.getD c).fuel m (minC.getD c) with
  | none => rw [hg] at hmk; simp at hmk
  | some mt =>
    rw [hg] at hmk
    simp only [Option.bind_some] at hmk
    split at hmk
    · simp at hmk
    next hbad =>
    simp only [Option.some.injEq, Except.ok.injEq] at hmk
    subst hmk
    simp only [not_or] at hbad
    obtain ⟨s1, s2⟩ := visit_shadow hr (c := c) t.postorder ⟨fun _ => 0, fun _ => 0⟩ ⟨fun _ => 0, fun _ => 0⟩ (fun _ => hr.zero)
    rw [hk0] at s1 s2
    refine ⟨⟨c, dis, seed, c, k, hyperCache c, 0⟩, oinv_fresh hwf hv1 hk hsem, ⟨rfl, rfl, rfl, rfl, fun p p1 p2 => ?_, s1⟩,
      rfl, rfl, rfl, rfl, hbad.1, hbad.2, hv1, hv2⟩
    have hl := hwf.linked
    refine s2 p (Or.inl ((hwf.mem p).2 p2)) (fun e => ?_) fun e => ?_
    · exact absurd ((hl.leaf0 p p2).1 e) (not_lt.2 p1)
    · exact absurd ((hl.leaf1 p p2).1 e) (not_lt.2 p1)

end
end TNCO
